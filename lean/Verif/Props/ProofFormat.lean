import Verif.Lemmas.ProofFormat
import Verif.Lemmas.Db
import Verif.Lemmas.Refine
import Verif.Lemmas.Witness
import Verif.Lemmas.Log
import Verif.Props.OneShot
/-
C88: the bytes of a proof, and exactly which bytes are accepted.
-/
namespace Urkel
open PTree

/-- `urkel_verify` accepts exactly the bytes of those proofs that prove something about the key for the root, and returns what they say. -/
theorem C88_verify (H : HashFn) (raw : Bytes) (key root : B32) (ex : Bool) (v : Bytes) :
    urkelVerify H raw key root = .ok ⟨.ok (), ex, v⟩ ↔
      ∃ p : Paper, p.Reads raw ∧ p.Proves H key root ∧
        match p.ending.answer with
        | some w => ex = true ∧ v = w
        | none => ex = false ∧ v = [] := by
  unfold urkelVerify
  obtain ⟨o, e, ho⟩ := proofRead_total raw
  rw [e, Res.bind_ok]
  cases o with
  | none =>
    constructor
    · intro h; cases h
    · rintro ⟨p, h1, _⟩
      have := (proofRead_iff raw p.toProof).2 ⟨p, h1, rfl⟩
      rw [e] at this
      cases this
  | some q =>
    have same : ∀ p : Paper, p.Reads raw → p.toProof = q := fun p hp => by
      have := (proofRead_iff raw p.toProof).2 ⟨p, hp, rfl⟩
      rw [e] at this
      cases this
      rfl
    obtain ⟨p, hp, rfl⟩ := (proofRead_iff raw q).1 e
    have hv := proofVerify_iff (H := H) hp.1 key root
    have ans : ∀ r : Paper, r.Reads raw → r.ending.answer = p.ending.answer := fun r hr => by
      have h1 : r.ending.toBody = p.ending.toBody := congrArg Proof.body (same r hr)
      have h2 : ∀ e : Ending, e.answer = e.toBody.answer := by intro e; cases e <;> rfl
      rw [h2, h2, h1]
    have pv : ∀ r : Paper, r.Reads raw → r.Proves H key root → p.Proves H key root := fun r hr h => by
      rw [← proofVerify_iff hp.1, ← same r hr, proofVerify_iff hr.1]; exact h
    constructor
    · intro h
      refine ⟨p, hp, ?_⟩
      dsimp only at h
      split at h
      · next e2 =>
        refine ⟨hv.1 e2, ?_⟩
        have hb : p.toProof.body = p.ending.toBody := rfl
        rw [hb] at h
        cases he : p.ending with
        | value w => rw [he] at h; cases h; exact ⟨rfl, rfl⟩
        | _ => rw [he] at h; cases h; exact ⟨rfl, rfl⟩
      all_goals cases h
    · rintro ⟨r, hr, hpr, ha⟩
      rw [ans r hr] at ha
      dsimp only
      rw [hv.2 (pv r hr hpr)]
      have hb : p.toProof.body = p.ending.toBody := rfl
      dsimp only
      rw [hb]
      cases he : p.ending with
      | value w => rw [he] at ha; obtain ⟨rfl, rfl⟩ := ha; rfl
      | _ => rw [he] at ha; obtain ⟨rfl, rfl⟩ := ha; rfl

/-- It reports `URKEL_EINVAL` exactly for bytes that are no proof at all. -/
theorem C88_malformed (H : HashFn) (raw : Bytes) (key root : B32) :
    urkelVerify H raw key root = .ok ⟨.error .EINVAL, false, []⟩ ↔ ∀ p : Paper, ¬ p.Reads raw := by
  unfold urkelVerify
  obtain ⟨o, e, ho⟩ := proofRead_total raw
  rw [e, Res.bind_ok]
  cases o with
  | none =>
    refine ⟨fun _ p hp => ?_, fun _ => rfl⟩
    have := (proofRead_iff raw p.toProof).2 ⟨p, hp, rfl⟩
    rw [e] at this
    cases this
  | some q =>
    obtain ⟨p, hp, rfl⟩ := (proofRead_iff raw q).1 e
    refine ⟨fun h => ?_, fun h => absurd hp (h p)⟩
    exfalso
    rcases proofVerify_total (H := H) key root (Paper.proofOk hp.1) with h1 | ⟨x, h1, h2⟩
    · dsimp only at h
      rw [h1] at h
      dsimp only at h
      split at h <;> cases h
    · dsimp only at h
      rw [h1] at h
      cases h
      simp at h2

/-- The proof that `urkel_tx_prove` returns is, byte by byte, the one of the format for the tree of the contents; unneeded bits are 0. -/
theorem C88_prove {E : Env} (hE : EnvOk E) {s : Sys} (hr : Reachable E s) {id : Nat} {tx : Tx} (hid : s.txs id = some tx) (k : B32) :
    ∃ t : PTree, t.Top ∧ Shows s.db tx t.find ∧ (honest E.H k t 0).ok ∧ ∃ tx',
      txProve E s.db tx k = .ok (tx', .ok ((honest E.H k t 0).encode (pack (honest E.H k t 0).flags))) := by
  obtain ⟨hist, t, hd, ht⟩ := hr.tree hE hid
  obtain ⟨tx', raw, e, _, hraw, hok⟩ := txProve_ok hd ht k
  rw [← honest_eq] at hraw hok
  have hpo := honest_ok hok
  refine ⟨t, ht.top, ht.shows hd, hpo, tx', ?_⟩
  rw [e, hraw, ← Paper.enc hpo, ← Paper.flags_eq]
  rfl

/-- So the bytes depend on nothing but the contents and the key: not on the history, the database or the limits. -/
theorem C88_canonical {E₁ E₂ : Env} (hE₁ : EnvOk E₁) (hE₂ : EnvOk E₂) (hH : E₁.H = E₂.H) {s₁ s₂ : Sys} (hr₁ : Reachable E₁ s₁) (hr₂ : Reachable E₂ s₂)
    {id₁ id₂ : Nat} {tx₁ tx₂ : Tx} (h₁ : s₁.txs id₁ = some tx₁) (h₂ : s₂.txs id₂ = some tx₂) (same : ∀ k, txGet s₁.db tx₁ k = txGet s₂.db tx₂ k) (k : B32) :
    ∃ raw tx₁' tx₂', txProve E₁ s₁.db tx₁ k = .ok (tx₁', .ok raw) ∧ txProve E₂ s₂.db tx₂ k = .ok (tx₂', .ok raw) := by
  obtain ⟨t, h1, h2, _, tx₁', h3⟩ := C88_prove hE₁ hr₁ h₁ k
  obtain ⟨u, k1, k2, _, tx₂', k3⟩ := C88_prove hE₂ hr₂ h₂ k
  have : t = u := find_inj h1 k1 (read_inj fun k => by rw [← h2, ← k2, same])
  subst this
  rw [hH] at h3
  exact ⟨_, _, _, h3, k3⟩

/-- And it proves what the transaction shows, in the terms of the format. -/
theorem C88_honest {H : HashFn} {t : PTree} (ht : t.Top) (hv : t.ValsLe 1023) (k : B32) : (honest H k t 0).Reads ((honest H k t 0).encode (pack (honest H k t 0).flags)) ∧
    (honest H k t 0).Proves H k (t.hash H) ∧ (honest H k t 0).ending.answer = t.find k := by
  have hp : ([] : List Bool) <+: k.bits := List.nil_prefix
  have hok := (proveSpec_ok (H := H) ht hp hv).1
  have ha := proveSpec_answer (H := H) ht hp
  have hve := proveSpec_verifies (H := H) (key := k) ht hv
  simp only [List.length_nil] at hok ha
  rw [← honest_eq] at hok ha hve
  have ho := honest_ok hok
  refine ⟨⟨ho, _, ?_, ?_, rfl⟩, (proofVerify_iff ho _ _).1 hve, ?_⟩
  · rw [length_pack]; simp [Paper.flags]
  · rw [bitsOf_pack, List.take_left']
    simp [Paper.flags]
  · rw [← ha]
    show _ = (honest H k t 0).ending.toBody.answer
    cases (honest H k t 0).ending <;> rfl

/-! ### Examples -/

/-- The proof of an absent key in a tree of two keys: one branch without bits, and then another key. -/
def twoKeys : PTree := .node [] (.leaf (keyOf 1) [7]) (.leaf (keyOf 128) [8])

theorem C88_bytes : (honest toyEnv.H (keyOf 2) twoKeys 0).encode (pack (honest toyEnv.H (keyOf 2) twoKeys 0).flags) =
    [1, 0x80, 1, 0, 0] ++ ((PTree.leaf (keyOf 128) [8]).hash toyEnv.H).bytes ++ (keyOf 1).bytes ++ (toyEnv.H [7]).bytes := by decide +kernel

/-- What the library returns. -/
example : ∃ s tx tx', Reachable toyEnv s ∧ s.txs 0 = some tx ∧ txProve toyEnv s.db tx (keyOf 2) =
    .ok (tx', .ok ([1, 0x80, 1, 0, 0] ++ ((PTree.leaf (keyOf 128) [8]).hash toyEnv.H).bytes ++ (keyOf 1).bytes ++ (toyEnv.H [7]).bytes)) := by
  obtain ⟨s, tx, a, b, c, _⟩ := reach_list toyEnv_ok [(keyOf 1, [7]), (keyOf 128, [8])] (by simp)
  obtain ⟨t, h1, h2, _, tx', h3⟩ := C88_prove toyEnv_ok a b (keyOf 2)
  have ht : t = twoKeys := by
    refine find_inj h1 (.inr ⟨?_, ?_⟩) (read_inj fun k => ?_)
    · show _ <+: _; decide +kernel
    · show _ <+: _; decide +kernel
    · rw [← h2, c]
      congr 1
      funext k
      simp only [Contents.ofList, List.foldl_cons, List.foldl_nil, Contents.set, Contents.empty, twoKeys, PTree.find]
      by_cases h1 : k = keyOf 1
      · subst h1; simp [show keyOf 1 ≠ keyOf 128 by decide]
      · by_cases h2 : k = keyOf 128 <;> simp [h1, h2, show keyOf 128 ≠ keyOf 1 by decide]
  subst ht
  rw [C88_bytes] at h3
  exact ⟨s, tx, tx', a, b, h3⟩

end Urkel
