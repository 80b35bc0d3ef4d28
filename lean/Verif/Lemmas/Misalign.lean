import Verif.Lemmas.Crash
import Verif.Lemmas.BigValue
import Verif.Lemmas.Scenario
/-
Defect 6: the padding before a commit record can start a new data file; the
record then is not at a multiple of 38 and the next open does not see it.
-/
namespace Urkel
open PTree

/-- The bytes a successful commit of a written root leaves in the files. -/
theorem storeCommit_layout {E : Env} (hE : EnvOk E) {s1 s2 : Store} {vf1 : List Bytes} (h : Slabbed E s1 vf1) {root rn : Node} {rp : Ptr}
    (h1 : rootPtrOf root = .ok rp) (h2 : toHash root = .ok rn) {ok : Bool}
    (hcap : used E.cfg.maxFile vf1 + 152 < E.cfg.maxFile * E.cfg.maxFiles)
    (e : storeCommit E s1 root = .ok (s2, ok)) :
    s2.files = vappend E.cfg.maxFile (padFiles E.cfg.maxFile vf1) (metaWrite E s1.key ⟨s1.state.metaPtr, rp, rn⟩) := by
  have hm := hE.cfg.min
  obtain ⟨slp, ep, sp, xp, up, tp, lp⟩ := pad_slab hE.cfg h
  have hlen' : (metaWrite E s1.key ⟨s1.state.metaPtr, rp, rn⟩).length = 38 := length_metaWrite hE.mac _ _
  obtain ⟨slm, em, sm, olm⟩ := slabWrite_ok sp (d := metaWrite E s1.key ⟨s1.state.metaPtr, rp, rn⟩) (by omega)
  have um := used_vappend E.cfg.maxFile sp.ne (metaWrite E s1.key ⟨s1.state.metaPtr, rp, rn⟩)
  obtain ⟨s3, ef, sf, ff, sok, _⟩ := flushSync_ok sm olm (length_of_used (max := E.cfg.maxFile) (by omega))
  unfold storeCommit storeWriteMeta at e
  simp only [h1, Res.bind_ok, h2, ep, em, Res.pure_eq] at e
  simp only at ef
  rw [ef] at e
  simp only [Res.bind_ok, if_true] at e
  cases e
  exact ff

/-- A database with only empty commits, `n` of them, in one file. -/
structure Empties (E : Env) (n : Nat) (s : Sys) : Prop where
  logged : ∃ log, Logged E log s ∧ log.length = n ∧ ∀ p ∈ log, p.2 = Contents.empty
  tx : s.txs 0 = some ⟨some .null⟩
  rev : s.db.revert = false
  files : ∃ f, s.db.store.files = [f] ∧ f.length = 38 * n

theorem empties {E : Env} (hE : EnvOk E) (hc : E.cfg = realCfg) (n : Nat) (hn : 38 * n ≤ 2147479552) : ∃ s, Empties E n s := by
  induction n with
  | zero =>
    obtain ⟨s0, h0, _, hf⟩ := started_exists E B32.zero
    have hrv : s0.db.revert = false := (Exec.start h0).revert (by simp [NoInject])
    have hs0 := start_sim h0
    have hroot : s0.db.store.state.rootNode = .null := by
      rcases hs0.db.inv.root with ⟨_, a⟩ | ⟨p, _, hd⟩
      · exact a
      · exact hd.elim
    have e3 : step E s0 (.create 0 none) = .ok (s0.setTx 0 (some ⟨some .null⟩), .unit) := by
      simp only [step, txCreate]
      rw [if_neg (by simp [hrv]), hroot]
      rfl
    exact ⟨_, ⟨[], .other (op := .create 0 none) (.start h0) trivial e3 (Or.inr fun c hc => hc.elim), rfl, by simp⟩,
      by simp [Sys.setTx], hrv, [], hf, rfl⟩
  | succ n ih =>
    obtain ⟨s, ⟨log, hl, hll, hle⟩, htx, hrv, f, hf, hfl⟩ := ih (by omega)
    obtain ⟨hist, t, hd, ht⟩ := hl.reachable.tree hE htx
    have hsh : Shows s.db ⟨some .null⟩ Contents.empty := by
      intro k
      have : ∀ f, treeGet s.db.store k true (f + 1) .null 0 = .err .ENOTFOUND := fun _ => rfl
      simp only [txGet, Tx.node, Res.bind_ok]
      exact this 599
    have hcan : CanCommit E s.db ⟨some .null⟩ := by
      refine canCommit_of hd ht hsh (by intro k v h; cases h) [] (by intro k h; exact (h rfl).elim) ?_
      simp only [HasRoom, hc, realCfg, hf, show [f].getLastD [] = f from rfl, hfl, List.length_singleton, List.length_nil]
      omega
    obtain ⟨hv, hcap⟩ := canCommit_tree hd ht hcan
    obtain ⟨db', tx', e3, hd', ht', hcm, hh, hrv'⟩ := txCommit_ok hE hd ht hv hcap
    have e1 : step E s (.commit 0) = .ok (({ s with db := db' } : Sys).setTx 0 (some tx'), .unit) := by
      simp only [step, Sys.tx, htx, Res.bind_ok, e3, Res.pure_eq]; rfl
    have hlog := Logged.commit (op := .commit 0) hl ⟨_, htx, hcan⟩ e1 ⟨_, htx, hsh⟩
    -- the layout
    have lay : tx' = ⟨some .null⟩ ∧ ∃ g, db'.store.files = [g] ∧ g.length = 38 * (n + 1) := by
      unfold txCommit at e3
      simp only [Tx.node, Res.bind_ok, treeWrite] at e3
      obtain ⟨⟨s2, ok⟩, e4, e3⟩ := Res.bind_eq_ok.1 e3
      have lay := storeCommit_layout hE hd.inv.slab (root := .null) (rp := Ptr.zero) (rn := .null) rfl rfl (by
        rw [hc, hf]; simp only [used, lastLen, realCfg]; simp [hfl]; omega) e4
      cases ok with
      | false => cases e3
      | true =>
        cases e3
        refine ⟨rfl, ?_⟩
        have hpad : padFiles E.cfg.maxFile s.db.store.files = [f] := by
          unfold padFiles
          rw [hf, if_neg (by simp [lastLen, hfl, metaSize])]
        rw [hpad] at lay
        have hlen' : ∀ m, (metaWrite E s.db.store.key m).length = 38 := fun m => length_metaWrite hE.mac _ _
        rw [show ([f] : List Bytes) = [] ++ [f] from rfl, vappend_snoc,
          if_neg (by rw [hlen', hfl, hc]; simp only [realCfg]; omega)] at lay
        exact ⟨_, lay, by rw [List.length_append, hlen', hfl]; omega⟩
    obtain ⟨rfl, g, hg, hgl⟩ := lay
    refine ⟨_, ⟨_, hlog, by simp [hll], ?_⟩, by simp [Sys.setTx], by simp [Sys.setTx, hrv', hrv], g, hg, hgl⟩
    intro p hp
    rcases List.mem_cons.1 hp with rfl | hp
    · rfl
    · exact hle p hp

/-- Committing one new leaf with an empty value after an aligned file that has
room for its record but not for the padding. -/
theorem leaf_layout {E : Env} (hE : EnvOk E) {db db' : Db} {tx' : Tx} {hist : List PTree} (hd : DInv E db hist) (k : B32) {f : Bytes}
    (hf : db.store.files = [f]) (h0 : f.length % 38 = 0) (h1 : f.length + 40 ≤ E.cfg.maxFile) (h2 : E.cfg.maxFile < f.length + 76)
    (hcap : used E.cfg.maxFile db.store.files + 232 < E.cfg.maxFile * E.cfg.maxFiles)
    (e : txCommit E db ⟨some (createLeaf E.H k [])⟩ = .ok (db', tx', .ok ())) :
    ∃ vp m, db'.store.files = [f ++ leafRec vp k, List.replicate 36 0 ++ metaWrite E db.store.key m] := by
  have hm := hE.cfg.min
  have hc := hE.cfg
  have h := hd.inv.slab
  obtain ⟨sl1, e1, s1, ol1⟩ := slabWrite_ok h (d := []) (by simp)
  have va : vappend E.cfg.maxFile db.store.files [] = [f] := by
    rw [hf, show ([f] : List Bytes) = [] ++ [f] from rfl, vappend_snoc, if_neg (by simp; omega)]; simp
  rw [va] at s1
  generalize hvp : savePtr sl1.fileIndex (sl1.filePos - ([] : Bytes).length) ([] : Bytes).length = vp
  have hu : used E.cfg.maxFile [f] + 232 < E.cfg.maxFile * E.cfg.maxFiles := by rw [← hf]; exact hcap
  obtain ⟨sl2, e2, s2, ol2, p, ep, okp, ip, zp, rp⟩ :=
    slabWrite_rec hc s1 (d := leafRec vp k) (by rw [length_leafRec]; omega) (by rw [length_leafRec]; omega)
  rw [length_leafRec] at ep zp
  have vb : vappend E.cfg.maxFile [f] (leafRec vp k) = [f ++ leafRec vp k] := by
    rw [show ([f] : List Bytes) = [] ++ [f] from rfl, vappend_snoc, if_neg (by rw [length_leafRec]; omega)]; simp
  have u2 := used_vappend E.cfg.maxFile s1.ne (leafRec vp k)
  rw [length_leafRec] at u2
  have hnp : NPtr p := ⟨okp, ip, by omega, by omega⟩
  obtain ⟨s3, ef, hs3, hm3⟩ := flushAndHash_ok s2 true (fun _ => ol2) (length_of_used (max := E.cfg.maxFile) (by omega))
    (n := .leaf (some (hashValue E.H k [])) (some p) k (some []) (some vp))
    (n2 := .leaf (some (hashValue E.H k [])) (some p) k (some []) (some vp))
    (o := .hash (hashValue E.H k []) p) (x := hashValue E.H k [])
    (by rw [nodeHash]) (by simp only [toHash, markPtr_id hnp])
  have hw : treeWrite E (createLeaf E.H k []) db.store = .ok (s3, some (.hash (hashValue E.H k []) p)) := by
    have er : nodeWrite (.leaf (some (hashValue E.H k [])) none k (some []) (some vp)) = .ok (leafRec vp k) := rfl
    simp only [createLeaf, treeWrite, storeWriteValue, e1, Res.bind_ok, Res.pure_eq, hvp, storeWriteNode, er, e2]
    simp only [length_leafRec, ep]
    exact ef
  unfold txCommit at e
  simp only [Tx.node, Res.bind_ok, hw] at e
  obtain ⟨⟨s4, ok⟩, e4, e⟩ := Res.bind_eq_ok.1 e
  have lay := storeCommit_layout hE hs3 (root := .hash (hashValue E.H k []) p) (rp := p) (rn := .hash (hashValue E.H k []) p) rfl
    (by simp only [toHash, markPtr_id hnp]) (by omega) e4
  cases ok with
  | false => cases e
  | true =>
    cases e
    refine ⟨vp, ⟨s3.state.metaPtr, p, .hash (hashValue E.H k []) p⟩, ?_⟩
    simp only
    rw [lay, vb, hm3.1]
    have hl : (f ++ leafRec vp k).length = f.length + 40 := by rw [List.length_append, length_leafRec]
    have hpad : padFiles E.cfg.maxFile [f ++ leafRec vp k] = [f ++ leafRec vp k, List.replicate 36 0] := by
      have h3 : lastLen [f ++ leafRec vp k] % metaSize = 2 := by
        simp only [lastLen, List.getLast?_singleton, Option.getD_some, hl, metaSize]; omega
      unfold padFiles
      rw [h3, if_pos (by decide), show ([f ++ leafRec vp k] : List Bytes) = [] ++ [f ++ leafRec vp k] from rfl, vappend_snoc,
        if_pos (by rw [List.length_replicate, hl]; simp only [metaSize]; omega)]
      rfl
    have hlen' : ∀ m, (metaWrite E db.store.key m).length = 38 := fun m => length_metaWrite hE.mac _ _
    rw [hpad, show ([f ++ leafRec vp k, List.replicate 36 0] : List Bytes) = [f ++ leafRec vp k] ++ [List.replicate 36 0] from rfl,
      vappend_snoc, if_neg (by rw [hlen', List.length_replicate]; omega)]
    rfl

end Urkel
