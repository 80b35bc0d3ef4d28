import Verif.Props.Map
/-
C10-C15: Merkle proofs.
-/
namespace Urkel
open PTree

/-- C10. `urkel_tx_prove` succeeds for every key and `urkel_verify` accepts the
bytes against the transaction's root, reporting what `get` reports. -/
theorem C10_proof_complete {E : Env} (hE : EnvOk E) {s : Sys} (hr : Reachable E s) {id : Nat} {tx : Tx}
    (hid : s.txs id = some tx) (k : B32) :
    ∃ tx' raw a root, txProve E s.db tx k = .ok (tx', .ok raw) ∧ txRoot E tx = .ok (a, root) ∧
      (∀ v, txGet s.db tx k = .ok v → urkelVerify E.H raw k root = .ok ⟨.ok (), true, v⟩) ∧
      (txGet s.db tx k = .err .ENOTFOUND → urkelVerify E.H raw k root = .ok ⟨.ok (), false, []⟩) ∧
      ((∃ v, txGet s.db tx k = .ok v) ∨ txGet s.db tx k = .err .ENOTFOUND) ∧
      (∀ k', txGet s.db tx' k' = txGet s.db tx k') ∧ (∃ b, txRoot E tx' = .ok (b, root)) := by
  obtain ⟨hist, t, hd, ht⟩ := hr.tree hE hid
  obtain ⟨tx', raw, e, ht', hraw, _⟩ := txProve_ok hd ht k
  obtain ⟨a, ea, _⟩ := txRoot_ok ht
  obtain ⟨b, eb, _⟩ := txRoot_ok ht'
  have hver := verify_honest (H := E.H) ht.top ht.vals k
  rw [← hraw] at hver
  refine ⟨tx', raw, a, _, e, ea, ?_, ?_, ?_, fun k' => by rw [ht'.shows hd, ht.shows hd], b, eb⟩
  · intro v hv
    rw [hver]
    rw [txGet_ok hd ht] at hv
    cases h : t.find k <;> rw [h] at hv <;> simp [lookupRes] at hv
    simp [hv]
  · intro hv
    rw [hver]
    rw [txGet_ok hd ht] at hv
    cases h : t.find k <;> rw [h] at hv <;> simp [lookupRes] at hv
    simp
  · rw [txGet_ok hd ht]
    cases t.find k with
    | none => exact Or.inr rfl
    | some v => exact Or.inl ⟨v, rfl⟩

example : ∃ s tx, Reachable toyEnv s ∧ s.txs 0 = some tx ∧ txGet s.db tx (keyOf 1) = .ok [7] ∧
    txGet s.db tx (keyOf 3) = .err .ENOTFOUND :=
  let ⟨s, tx, a, b, c, _, d, _⟩ := demo; ⟨s, tx, a, b, c, d⟩

/-- What an accepted proof is: a parsed proof that verifies, and its answer. -/
theorem verify_inv {H : HashFn} {raw : Bytes} {k root : B32} {ex : Bool} {v : Bytes}
    (h : urkelVerify H raw k root = .ok ⟨.ok (), ex, v⟩) :
    ∃ p, proofRead raw = .ok (some p) ∧ ProofOk p ∧ proofVerify H p k root = .ok () ∧
      ex = p.body.answer.isSome ∧ v = p.body.answer.getD [] := by
  obtain ⟨o, e, ho⟩ := proofRead_total raw
  simp only [urkelVerify, e, Res.bind_ok] at h
  cases o with
  | none => simp at h
  | some p =>
    obtain ⟨hok, _⟩ := ho p rfl
    rcases proofVerify_total (H := H) k root hok with hv | ⟨x, hv, _⟩
    · simp only [hv] at h
      refine ⟨p, e, hok, hv, ?_⟩
      cases hb : p.body <;> rw [hb] at h <;> simp at h <;> simp [PBody.answer, h]
    · simp [hv] at h

/-- C11. Whatever bytes are presented: if `urkel_verify` accepts them for a key
against the root of a transaction, the reported answer is what the transaction
holds, or the strings hashed for the tree and for the proof contain a collision
or a preimage of the zero digest. -/
theorem C11_proof_sound {E : Env} (hE : EnvOk E) {s : Sys} (hr : Reachable E s) {id : Nat} {tx tx' : Tx}
    (hid : s.txs id = some tx) {root : B32} (hroot : txRoot E tx = .ok (tx', root))
    (raw : Bytes) (k : B32) (ex : Bool) (v : Bytes) (hv : urkelVerify E.H raw k root = .ok ⟨.ok (), ex, v⟩) :
    (ex = true ∧ txGet s.db tx k = .ok v) ∨
    (ex = false ∧ v = [] ∧ txGet s.db tx k = .err .ENOTFOUND) ∨
    ∃ t : PTree, t.Top ∧ Shows s.db tx t.find ∧ BrokenOn E.H (t.inputs E.H ++ verifyInputs E.H raw k) := by
  obtain ⟨hist, t, hd, ht⟩ := hr.tree hE hid
  obtain ⟨a, ea, _⟩ := txRoot_ok ht
  rw [ea] at hroot; cases hroot
  obtain ⟨p, e, hok, hp, rfl, rfl⟩ := verify_inv hv
  rcases proof_sound hok ht.top ht.vals hp with hb | ha
  · refine Or.inr (Or.inr ⟨t, ht.top, ht.shows hd, ?_⟩)
    simpa only [verifyInputs, e] using hb
  · rw [ha, txGet_ok hd ht]
    cases t.find k with
    | none => exact Or.inr (Or.inl ⟨rfl, rfl, rfl⟩)
    | some v => exact Or.inl ⟨rfl, rfl⟩

example : ∃ s tx tx' root raw, Reachable toyEnv s ∧ s.txs 0 = some tx ∧ txRoot toyEnv tx = .ok (tx', root) ∧
    urkelVerify toyEnv.H raw (keyOf 1) root = .ok ⟨.ok (), true, [7]⟩ := by
  obtain ⟨s, tx, a, b, c, _⟩ := demo
  obtain ⟨tx', raw, x, root, _, e2, e3, _⟩ := C10_proof_complete toyEnv_ok a b (keyOf 1)
  exact ⟨s, tx, x, root, raw, a, b, e2, e3 _ c⟩

/-- C12. Two accepted proofs for the same key and root, whatever the root is,
report the same answer, or the strings hashed for them contain a collision or a
preimage of the zero digest. -/
theorem C12_no_equivocation (H : HashFn) (raw₁ raw₂ : Bytes) (k root : B32) (ex₁ ex₂ : Bool) (v₁ v₂ : Bytes)
    (h₁ : urkelVerify H raw₁ k root = .ok ⟨.ok (), ex₁, v₁⟩) (h₂ : urkelVerify H raw₂ k root = .ok ⟨.ok (), ex₂, v₂⟩) :
    (ex₁ = ex₂ ∧ v₁ = v₂) ∨ BrokenOn H (verifyInputs H raw₁ k ++ verifyInputs H raw₂ k) := by
  obtain ⟨p, e, hok, hp, rfl, rfl⟩ := verify_inv h₁
  obtain ⟨q, e', hok', hq, rfl, rfl⟩ := verify_inv h₂
  rcases proofs_agree (S := verifyInputs H raw₁ k ++ verifyInputs H raw₂ k) hok hok'
    (fun x h => List.mem_append_left _ (by simpa only [verifyInputs, e] using h))
    (fun x h => List.mem_append_right _ (by simpa only [verifyInputs, e'] using h)) hp hq with hb | ha
  · exact Or.inr hb
  · rw [ha]; exact Or.inl ⟨rfl, rfl⟩

example : ∃ raw root, urkelVerify toyEnv.H raw (keyOf 1) root = .ok ⟨.ok (), true, [7]⟩ := by
  obtain ⟨s, tx, a, b, c, _⟩ := demo
  obtain ⟨_, raw, _, root, _, _, e3, _⟩ := C10_proof_complete toyEnv_ok a b (keyOf 1)
  exact ⟨raw, root, e3 _ c⟩

/-- C13. `urkel_verify` always returns: no abort, no out-of-bounds access; it
accepts with a value of at most 1023 bytes (empty when the key is absent) or
rejects with one of seven errors and empty outputs. -/
theorem C13_verify_total (H : HashFn) (raw : Bytes) (k root : B32) :
    ∃ out, urkelVerify H raw k root = .ok out ∧ out.value.length ≤ 1023 ∧ (out.exists_ = false → out.value = []) ∧
      (out.ret = .ok () ∨
        (∃ e, out.ret = .error e ∧ e ∈ [Err.EINVAL, .ESAMEPATH, .ESAMEKEY, .ENEGDEPTH, .EPATHMISMATCH, .ETOODEEP,
          .EHASHMISMATCH]) ∧ out.exists_ = false ∧ out.value = []) := by
  obtain ⟨o, e, ho⟩ := proofRead_total raw
  simp only [urkelVerify, e, Res.bind_ok]
  cases o with
  | none => exact ⟨_, rfl, by simp, fun _ => rfl, Or.inr ⟨⟨_, rfl, by simp⟩, rfl, rfl⟩⟩
  | some p =>
    obtain ⟨hok, _⟩ := ho p rfl
    rcases proofVerify_total (H := H) k root hok with hv | ⟨x, hv, hx⟩
    · simp only [hv]
      have hb := hok.body
      cases hc : p.body with
      | «exists» v => rw [hc] at hb; exact ⟨_, rfl, hb, fun h => (nomatch h), Or.inl rfl⟩
      | _ => exact ⟨_, rfl, by simp, fun _ => rfl, Or.inl rfl⟩
    · simp only [hv]
      exact ⟨_, rfl, by simp, fun _ => rfl, Or.inr ⟨⟨_, rfl, List.mem_cons_of_mem _ hx⟩, rfl, rfl⟩⟩

/-- C14. The proof built by `urkel_tx_prove` is serialized to exactly
`urkel_proof_size` bytes, at most 17957, and parses back to the same proof. -/
theorem C14_proof_roundtrip {E : Env} (hE : EnvOk E) {s : Sys} (hr : Reachable E s) {id : Nat} {tx : Tx}
    (hid : s.txs id = some tx) (k : B32) :
    ∃ n pf n' tx' raw, tx.root = some n ∧ treeProve E s.db.store k treeFuel n 0 0 = .ok (some pf, n') ∧
      txProve E s.db tx k = .ok (tx', .ok raw) ∧ proofWrite pf = .ok raw ∧ proofSize pf = .ok raw.length ∧
      raw.length ≤ 17957 ∧ proofRead raw = .ok (some pf) := by
  obtain ⟨hist, t, hd, ht⟩ := hr.tree hE hid
  obtain ⟨tx', raw, e, _, hraw, hok⟩ := txProve_ok hd ht k
  obtain ⟨n, hn, hrep, htop, hvs⟩ := ht
  rw [← rd_of hd] at hrep
  obtain ⟨n', e1, _⟩ := treeProve_ok k treeFuel hrep (p := []) (pushed := 0) htop List.nil_prefix (by simp)
    (Top.cost_le htop n)
  refine ⟨n, _, n', tx', raw, hn, e1, e, ?_, ?_, ?_, ?_⟩
  · rw [hraw]; exact proofWrite_ok hok
  · rw [hraw]; exact proofSize_ok hok
  · rw [hraw]; exact length_encProof_le hok
  · rw [hraw]; exact proofRead_enc hok

example : ∃ s tx, Reachable toyEnv s ∧ s.txs 0 = some tx ∧ txGet s.db tx (keyOf 1) = .ok [7] :=
  let ⟨s, tx, a, b, c, _⟩ := demo; ⟨s, tx, a, b, c⟩

/-! ### C15 -/

/-- A one-node proof that a key is absent; `x` is the byte holding the one-bit
bitmap and seven bits of padding. -/
def paddedProof (x : UInt8) : Bytes := [1, 0, 1, 0, x] ++ List.replicate 32 9

/-- C15 fails: whatever the hash function, there are two different byte strings
that `urkel_verify` accepts for the same key and root with the same answer,
because unused bits of the bitmap are ignored (proof.c:168-176). -/
theorem C15_unique_encoding_false (H : HashFn) :
    ∃ raw raw' k root, raw ≠ raw' ∧ urkelVerify H raw k root = .ok ⟨.ok (), false, []⟩ ∧
      urkelVerify H raw' k root = .ok ⟨.ok (), false, []⟩ := by
  refine ⟨paddedProof 0, paddedProof 1, B32.zero, H ([1] ++ B32.zero.bytes ++ List.replicate 32 9), by decide, ?_, ?_⟩
  all_goals
    have hp : ∀ x : UInt8, x = 0 ∨ x = 1 → proofRead (paddedProof x) =
        .ok (some ⟨1, [⟨⟨0, List.replicate 32 0⟩, ⟨List.replicate 32 9, by simp⟩⟩], .deadend⟩) := by
      rintro x (rfl | rfl) <;> rfl
    simp only [urkelVerify, hp 0 (Or.inl rfl), hp 1 (Or.inr rfl), Res.bind_ok]
    have hv : proofVerify H ⟨1, [⟨⟨0, List.replicate 32 0⟩, ⟨List.replicate 32 9, by simp⟩⟩], .deadend⟩ B32.zero
        (H ([1] ++ B32.zero.bytes ++ List.replicate 32 9)) = .ok () := by
      simp [proofVerify, proofSane, keyBits, verifyLoop, getBit, B32.zero, byteBit, hashInternal, bitsHas, bitsCount,
        bitsCountAt, bitsCountLoop]
    rw [hv]; rfl

/-- The unused bits at the end of the bitmap of a serialized proof. -/
def paddingBits (raw : Bytes) : List Bool :=
  let count := leNat ((raw.drop 2).take 2)
  (bitsOf ((raw.drop 4).take ((count + 7) / 8))).drop count

/-- C15 (partial): two byte strings that decode to the same proof can differ in
those padding bits only. Missing from the full claim: the padding bits are not
checked, so they can differ (`C15_unique_encoding_false`). -/
theorem C15_unique_encoding_partial (raw raw' : Bytes) (p : Proof) (h : proofRead raw = .ok (some p))
    (h' : proofRead raw' = .ok (some p)) (hpad : paddingBits raw = paddingBits raw') : raw = raw' := by
  have key : ∀ raw, proofRead raw = .ok (some p) → ∃ bm, raw = encProofWith p bm ∧
      (bitsOf bm).take p.nodes.length = flags p.nodes ∧ paddingBits raw = (bitsOf bm).drop p.nodes.length := by
    intro raw h
    obtain ⟨o, e, ho⟩ := proofRead_total raw
    rw [h] at e; cases e
    obtain ⟨hok, bm, hl, hf, he⟩ := ho p rfl
    refine ⟨bm, he, hf, ?_⟩
    have hc := hok.count
    have h1 : leNat ((raw.drop 2).take 2) = p.nodes.length := by
      rw [he]
      have : (List.drop 2 (encProofWith p bm)).take 2 = leBytes 2 p.nodes.length := by
        unfold encProofWith
        simp only [List.append_assoc]
        rw [List.drop_append_of_le_length (by simp), List.drop_of_length_le (by simp), List.nil_append,
          List.take_append_of_le_length (by simp), List.take_of_length_le (by simp)]
      rw [this, leNat_leBytes]
      apply Nat.mod_eq_of_lt; omega
    have h2 : (raw.drop 4).take ((p.nodes.length + 7) / 8) = bm := by
      rw [he]
      unfold encProofWith
      have : (leBytes 2 ((p.body.type <<< 14) ||| p.depth) ++ leBytes 2 p.nodes.length).length = 4 := by simp
      rw [List.append_assoc, List.append_assoc, ← this, List.drop_left, ← hl, List.take_left]
    simp only [paddingBits, h1, h2]
  obtain ⟨bm, e1, f1, g1⟩ := key raw h
  obtain ⟨bm', e2, f2, g2⟩ := key raw' h'
  have : bitsOf bm = bitsOf bm' := by
    rw [← List.take_append_drop p.nodes.length (bitsOf bm), f1, ← g1, hpad, g2, ← f2, List.take_append_drop]
  rw [e1, e2, bitsOf_inj this]

example : proofRead (paddedProof 0) = .ok (some ⟨1, [⟨⟨0, List.replicate 32 0⟩, ⟨List.replicate 32 9, by simp⟩⟩], .deadend⟩) :=
  rfl

end Urkel
