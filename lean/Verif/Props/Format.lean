import Verif.Lemmas.Layout
import Verif.Lemmas.Log
import Verif.Lemmas.Concrete
/-
C87: the files are, byte by byte, what the documented format says, and any files of that format can be used.
-/
namespace Urkel
open PTree

variable {E : Env}

theorem Reachable.fromDir {s : Sys} (h : Reachable E s) (h1 : 1 < E.cfg.maxFiles) : FromDir E s := by
  obtain ⟨tr, h⟩ := h
  induction h with
  | start h =>
    obtain ⟨rand, d, db, e, rfl⟩ := h
    exact .opened (by simp [Dir.fresh]) (by simp only [Dir.fresh, List.length_nil]; omega) h1 e
  | step _ _ e ih => exact .call ih e

theorem files_of_used {files : List Bytes} {max maxFiles n : Nat} (hne : files ≠ []) (h : used max files + n < max * maxFiles) : 1 < maxFiles := by
  have := length_of_used (max := max) (maxFiles := maxFiles) (vf := files) (by omega)
  have := List.length_pos_iff.2 hne
  omega

theorem commit_draft (hE : EnvOk E) {s s' : Sys} (hr : Reachable E s) {id : Nat} {tx : Tx} (hid : s.txs id = some tx) {t : PTree} {hist : List PTree}
    (hd : DInv E s.db hist) (ht : TxIs E s.db tx t) (hc : CanCommit E s.db tx) (e : step E s (.commit id) = .ok (s', .unit)) :
    ∃ d : Draft, d.tree = t ∧ d.Rests E.H s.db.store.files ∧
      d.commit E s.db.store.key s.db.store.files = (s'.db.store.files, newestAt s'.db.store.files) := by
  obtain ⟨hv, hcap⟩ := canCommit_tree hd ht hc
  have hs := ((hr.fromDir (files_of_used hd.inv.slab.ne hcap)).sane hE).txs id tx hid
  simp only [step, Sys.tx, hid, Res.bind_ok] at e
  obtain ⟨⟨db', tx', r⟩, e1, e⟩ := Res.bind_eq_ok.1 e
  cases r with
  | error _ => cases e
  | ok u =>
    cases e
    exact txCommit_draft hE hd ht hs hv hcap e1

theorem oneShot_draft (hE : EnvOk E) {s : Sys} {db db2 : Db} {hist : List PTree} (hd : DInv E db hist) {tx tx' : Tx} {t : PTree}
    (hsame : SameDb s.db db) (ht : TxIs E db tx t) (hst : SaneTx db.store.rd tx) (hv : t.ValsLe 255)
    (hcap : used E.cfg.maxFile db.store.files + 2 * (t.bytes + 76) < E.cfg.maxFile * E.cfg.maxFiles) (e : txCommit E db tx = .ok (db2, tx', .ok ())) :
    ∃ d : Draft, d.tree = t ∧ d.Rests E.H s.db.store.files ∧ d.commit E s.db.store.key s.db.store.files = (db2.store.files, newestAt db2.store.files) := by
  obtain ⟨c, m, hsame⟩ := hsame.store
  obtain ⟨d, h1, h2, h3⟩ := txCommit_draft hE hd ht hst hv hcap e
  rw [hsame] at h2 h3
  exact ⟨d, h1, h2, h3⟩

/-- Every commit, by a transaction or in one call, appends to the files exactly this: the parts of the new tree that are not in
the files yet (their records and values), zeros to fill up to a multiple of 38, and the commit record. The tree holds the committed contents. -/
theorem C87_commit (hE : EnvOk E) {s s' : Sys} (hr : Reachable E s) {op : Op} (ha : Allowed E s op) {c : Contents} (hc : Commits E s op c)
    (e : step E s op = .ok (s', .unit)) :
    ∃ d : Draft, d.tree.Top ∧ d.tree.find = c ∧ d.Rests E.H s.db.store.files ∧
      d.commit E s.db.store.key s.db.store.files = (s'.db.store.files, newestAt s'.db.store.files) := by
  obtain ⟨sp, hist, hs⟩ := hr.sim hE
  cases op with
  | commit id =>
    obtain ⟨tx, hid, hsh⟩ := hc
    obtain ⟨tx', t, e1, _, ht, _⟩ := hs.tx (id := id) (by rw [hid]; simp)
    rw [hid] at e1
    cases e1
    obtain ⟨tx1, hid1, hcan⟩ := ha
    rw [hid] at hid1
    cases hid1
    obtain ⟨d, h1, h2, h3⟩ := commit_draft hE hr hid hs.db ht hcan e
    exact ⟨d, by rw [h1]; exact ht.top, by rw [h1]; exact ht.find_eq hs.db hsh, h2, h3⟩
  | insert1 k v =>
    obtain ⟨dbc, txc, c0, ec, shc, rfl⟩ := hc
    obtain ⟨hlen, hcan⟩ := ha
    obtain ⟨db', tx, t, ks, e0, hs', htx, hsn, hv, hk, hroom⟩ := canCommit1_tree hE hs hcan
    obtain ⟨db1, r1, e1, hs1, hsame, _⟩ := create_read hE hs none
    rw [e0] at ec e1
    obtain ⟨rfl, rfl⟩ : db' = dbc ∧ tx = txc := by cases ec; exact ⟨rfl, rfl⟩
    obtain ⟨rfl, rfl⟩ : db' = db1 ∧ Except.ok tx = r1 := by cases e1; exact ⟨rfl, rfl⟩
    have hfind := htx.find_eq hs'.db shc
    simp only [step, urkelInsert, e0, Res.bind_ok] at e
    rcases hlen with hlen | hlen
    · obtain ⟨tx', e3, ht'⟩ := txInsert_ok hs'.db htx k (v := v) (by omega)
      obtain ⟨it, ifd⟩ := Top.insert htx.top k v
      have hv' := vals_set htx.top it ifd hv (by rintro _ ⟨⟩; exact hlen)
      have hcap := room_of (db := db') (E := E) it hv' (ks := k :: ks) (fun k' hk' => by
          rw [ifd, Contents.set_apply] at hk'
          split at hk'
          · next e => simp [e]
          · exact List.mem_cons_of_mem _ (hk k' hk'))
        (by simpa using hroom)
      have hfd : FromDir E s := hr.fromDir (files_of_used hs'.db.inv.slab.ne hcap)
      obtain ⟨_, _, _, hct⟩ := txCreate_sane (hfd.sane hE).db e0
      have hst := txInsert_sane (hct tx rfl) e3
      simp only [e3, Res.bind_ok] at e
      obtain ⟨⟨db2, r2⟩, e4, e⟩ := Res.bind_eq_ok.1 e
      obtain ⟨⟨db3, tx3, r3⟩, e5, e4⟩ := Res.bind_eq_ok.1 e4
      obtain ⟨_, _, e4⟩ := Res.bind_eq_ok.1 e4
      cases e4
      cases r3 with
      | error _ => cases e
      | ok u =>
        cases e
        obtain ⟨d, h1, h2, h3⟩ := oneShot_draft hE hs'.db hsame ht' hst hv' hcap e5
        exact ⟨d, by rw [h1]; exact it, by rw [h1, ifd, hfind], h2, h3⟩
    · simp only [txInsert_big hlen, txDestroy_ok htx, Res.bind_ok, Res.pure_eq] at e
      cases e
  | remove1 k =>
    obtain ⟨dbc, txc, c0, ec, shc, rfl⟩ := hc
    obtain ⟨db', tx, t, ks, e0, hs', htx, hsn, hv, hk, hroom⟩ := canCommit1_tree hE hs ha
    obtain ⟨db1, r1, e1, hs1, hsame, _⟩ := create_read hE hs none
    rw [e0] at ec e1
    obtain ⟨rfl, rfl⟩ : db' = dbc ∧ tx = txc := by cases ec; exact ⟨rfl, rfl⟩
    obtain ⟨rfl, rfl⟩ : db' = db1 ∧ Except.ok tx = r1 := by cases e1; exact ⟨rfl, rfl⟩
    have hfind := htx.find_eq hs'.db shc
    have hrm := txRemove_ok hs'.db htx k
    simp only [step, urkelRemove, e0, Res.bind_ok] at e
    cases hf : t.find k with
    | none =>
      rw [hf] at hrm
      simp only [hrm, txDestroy_ok htx, Res.bind_ok, Res.pure_eq] at e
      cases e
    | some v =>
      rw [hf] at hrm
      obtain ⟨tx', e3, ht'⟩ := hrm
      obtain ⟨it, ifd⟩ := Top.remove htx.top hf
      have hv' := vals_set htx.top it ifd hv (by simp)
      have hcap := room_of (db := db') (E := E) it hv' (ks := k :: ks) (fun k' hk' => by
          rw [ifd, Contents.set_apply] at hk'
          split at hk'
          · next e => simp [e]
          · exact List.mem_cons_of_mem _ (hk k' hk'))
        (by simpa using hroom)
      have hfd : FromDir E s := hr.fromDir (files_of_used hs'.db.inv.slab.ne hcap)
      obtain ⟨_, _, _, hct⟩ := txCreate_sane (hfd.sane hE).db e0
      have hst := txRemove_sane (hct tx rfl) e3
      simp only [e3, Res.bind_ok] at e
      obtain ⟨⟨db2, r2⟩, e4, e⟩ := Res.bind_eq_ok.1 e
      obtain ⟨⟨db3, tx3, r3⟩, e5, e4⟩ := Res.bind_eq_ok.1 e4
      obtain ⟨_, _, e4⟩ := Res.bind_eq_ok.1 e4
      cases e4
      cases r3 with
      | error _ => cases e
      | ok u =>
        cases e
        obtain ⟨d, h1, h2, h3⟩ := oneShot_draft hE hs'.db hsame ht' hst hv' hcap e5
        exact ⟨d, by rw [h1]; exact it, by rw [h1, ifd, hfind], h2, h3⟩
  | _ => exact hc.elim

/-- At every moment the files hold every commit ever made: from the newest commit record, which is at the end of the last file, the
references lead to all of them, and each has its tree with the contents that were committed. -/
theorem C87_history (hE : EnvOk E) {log : List (B32 × Contents)} {s : Sys} (h : Logged E log s) :
    ∃ trees : List PTree, trees.map PTree.find = log.map Prod.snd ∧ (∀ t ∈ trees, t.Top ∧ t.ValsLe 1023) ∧
      CommitChain E s.db.store.key s.db.store.files trees (newestAt s.db.store.files) := by
  obtain ⟨sp, hist, hs, e, _⟩ := h.sim hE
  refine ⟨hist, by rw [← hs.hist, e], fun t ht => ⟨hs.db.inv.top t ht, hs.db.inv.vals t ht⟩, ?_⟩
  rw [hs.db.inv.newest]
  exact hs.db.inv.chain.saved hs.db.inv.mptr

/-- Any directory of this format, whoever made it, can be opened: nothing in it is changed, the root is that of its newest commit, and
from then on every sequence of calls answers as a database with this history of commits does. -/
theorem C87_open (hE : EnvOk E) {key : B32} {dir : Dir} {trees : List PTree} (h : Conforms E key dir trees) (rand : B32) :
    ∃ db, dbOpen E dir rand = .ok (dir, .ok db) ∧ dbRoot db = (trees.headD .null).hash E.H ∧
      ∀ tr s', ExecFrom E ⟨db, fun _ => none⟩ tr s' → ∃ sp, SpecExec E.H ⟨trees.map PTree.find, dbRoot db, fun _ => none⟩ tr sp := by
  obtain ⟨db, e, hd, _, _, hh, _⟩ := h.opens hE rand
  refine ⟨db, e, hh, fun tr s' hx => ?_⟩
  have h0 : Sim E ⟨db, fun _ => none⟩ ⟨trees.map PTree.find, dbRoot db, fun _ => none⟩ trees := ⟨hd, rfl, rfl, fun _ => trivial⟩
  have key : ∃ sp hist, SpecExec E.H ⟨trees.map PTree.find, dbRoot db, fun _ => none⟩ tr sp ∧ Sim E s' sp hist := by
    induction hx with
    | nil => exact ⟨_, _, .nil _, h0⟩
    | step _ ha hstep ih =>
      obtain ⟨sp, hist, h1, h2⟩ := ih
      obtain ⟨s2, r2, sp', hist', e, h3, h4⟩ := step_sim hE h2 _ ha
      rw [hstep] at e
      cases e
      exact ⟨sp', hist', .snoc h1 h3, h4⟩
  obtain ⟨sp, _, h1, _⟩ := key
  exact ⟨sp, h1⟩

/-- What the library leaves behind is a directory of this format, if its last commit record begins at a multiple of 38 (defect 6 in DESIGN.md). -/
theorem C87_close (hE : EnvOk E) {log : List (B32 × Contents)} {s : Sys} (h : Logged E log s)
    (hf : s.db.store.files.length < E.cfg.maxFiles) (ha : (s.db.store.files.getLastD []).length % 38 = 0) :
    ∃ trees : List PTree, trees.map PTree.find = log.map Prod.snd ∧ Conforms E s.db.store.key s.db.dir trees := by
  obtain ⟨sp, hist, hs, e, _⟩ := h.sim hE
  refine ⟨hist, by rw [← hs.hist, e], rfl, hs.db.inv.slab.ne, hf, hs.db.inv.le, ha, ?_, fun t ht => ⟨hs.db.inv.top t ht, hs.db.inv.vals t ht⟩⟩
  show CommitChain E s.db.store.key s.db.store.files hist (newestAt s.db.store.files)
  rw [hs.db.inv.newest]
  exact hs.db.inv.chain.saved hs.db.inv.mptr

/-- The directory of another program that follows the format: it starts with a key and an empty file. -/
theorem C87_new (hE : EnvOk E) (h1 : 1 < E.cfg.maxFiles) (key : B32) : Conforms E key ⟨some key.bytes, [[]]⟩ [] :=
  ⟨rfl, by simp, h1, by simp, rfl, rfl, by simp⟩

/-- And it makes commits as the format says, of trees of which parts may be there already. -/
theorem C87_made (hE : EnvOk E) {key : B32} {dir : Dir} {trees : List PTree} (h : Conforms E key dir trees) {d : Draft} (hr : d.Rests E.H dir.files)
    (ht : d.tree.Top ∧ d.tree.ValsLe 1023) (h1 : (d.commit E key dir.files).1.length < E.cfg.maxFiles)
    (h2 : ∀ f ∈ (d.commit E key dir.files).1, f.length ≤ E.cfg.maxFile) (h3 : ((d.commit E key dir.files).1.getLastD []).length % 38 = 0) :
    Conforms E key ⟨some key.bytes, (d.commit E key dir.files).1⟩ (d.tree :: trees) := by
  obtain ⟨a, b⟩ := commit_chain hE h.nonempty h.commits hr
  refine ⟨rfl, ?_, h1, h2, h3, by rw [← a]; exact b, fun t ht' => ?_⟩
  · obtain ⟨a1, a2, _⟩ := Draft.save_saved E.cfg.maxFile h.nonempty hr
    exact (put_at E.cfg.maxFile (fill_ext E.cfg.maxFile a2).2 _).2.1
  · rcases List.mem_cons.1 ht' with rfl | ht'
    · exact ht
    · exact h.proper t ht'

theorem commit_after {d : Draft} {key : B32} {files : List Bytes} (hne : files ≠ []) (hr : d.Rests E.H files) {p : Ptr}
    (hp : (d.save E.H E.cfg.maxFile files).2 = p) : Saved E.H (d.commit E key files).1 d.tree p := by
  obtain ⟨a1, a2, a3⟩ := Draft.save_saved E.cfg.maxFile hne hr
  rw [hp] at a3
  exact a3.mono ((fill_ext _ a2).1.trans (put_at _ (fill_ext _ a2).2 _).1)

/-! ### Examples -/

/-- The bytes of a first commit of one key, with toy hash functions (the hash is not in them, the checksum is). -/
theorem C87_bytes : (Draft.leaf (keyOf 1) [9]).commit toyEnv B32.zero [[]] =
    ([[9] ++ [2, 2, 0, 0, 0, 0, 0, 1] ++ (keyOf 1).bytes ++ List.replicate 35 0 ++
      ([0x6c, 0x6b, 0x72, 0x6d] ++ List.replicate 7 0 ++ [2, 0, 2, 0, 0, 0, 40]) ++
        toyEnv.mac B32.zero ([0x6c, 0x6b, 0x72, 0x6d] ++ List.replicate 7 0 ++ [2, 0, 2, 0, 0, 0, 40])], ⟨1, 76, 0⟩) := by decide +kernel

/-- It is what the library writes: the hypotheses of `C87_commit` hold. -/
example : ∃ s s' c, Reachable toyEnv s ∧ Allowed toyEnv s (.commit 0) ∧ Commits toyEnv s (.commit 0) c ∧ step toyEnv s (.commit 0) = .ok (s', .unit) ∧
    s'.db.store.files = ((Draft.leaf (keyOf 1) [9]).commit toyEnv B32.zero [[]]).1 := by
  have hcan := sys2_can (keyOf 1) [9] (by decide)
  have hr := (sys2_logged (keyOf 1) [9] (by decide)).reachable
  have ha : Allowed toyEnv (sys2 (keyOf 1) [9]) (.commit 0) := ⟨_, sys2_tx _ _, by rw [sys2_db]; exact hcan⟩
  have e : (match step toyEnv (sys2 (keyOf 1) [9]) (.commit 0) with
    | .ok (s', .unit) => decide (s'.db.store.files = ((Draft.leaf (keyOf 1) [9]).commit toyEnv B32.zero [[]]).1)
    | _ => false) = true := by decide +kernel
  split at e
  · next s' h => exact ⟨_, s', _, hr, ha, ⟨_, sys2_tx _ _, by rw [sys2_db]; exact sys2_shows _ _ (by decide)⟩, h, of_decide_eq_true e⟩
  · cases e

/-- A directory that some other program made: a commit of a key with a value of 300 bytes, which this library could not have written (defect 1)
but can read, and a second commit with one more key, that refers to the first one's leaf. -/
def madeLeaf : Draft := .leaf (keyOf 1) (List.replicate 300 7)
def madeMore : Draft := .node [] (.old (.leaf (keyOf 1) (List.replicate 300 7)) ⟨1, 300, 40⟩) (.leaf (keyOf 128) [5])

theorem keyOf_first : WF [false] (.leaf (keyOf 1) (List.replicate 300 7)) ∧ WF [true] (.leaf (keyOf 128) [5]) := by
  constructor <;> (show _ <+: _; decide +kernel)

theorem C87_foreign : ∃ files, files = (madeMore.commit toyEnv B32.zero (madeLeaf.commit toyEnv B32.zero [[]]).1).1 ∧
    Conforms toyEnv B32.zero ⟨some B32.zero.bytes, files⟩ [madeMore.tree, madeLeaf.tree] ∧ madeMore.tree.find (keyOf 1) = some (List.replicate 300 7) := by
  refine ⟨_, rfl, ?_, by decide +kernel⟩
  have hl : (List.replicate 300 (7 : UInt8)).length ≤ 1023 := by rw [List.length_replicate]; decide
  have c1 := C87_made toyEnv_ok (C87_new toyEnv_ok (by decide) B32.zero) (d := madeLeaf) trivial
    ⟨.inr (List.nil_prefix), hl⟩ (by decide +kernel) (by decide +kernel) (by decide +kernel)
  have hs : Saved toyEnv.H (madeLeaf.commit toyEnv B32.zero [[]]).1 (.leaf (keyOf 1) (List.replicate 300 7)) ⟨1, 300, 40⟩ := by
    exact commit_after (E := toyEnv) (d := madeLeaf) (by simp) trivial (by decide +kernel)
  have h1 : (madeMore.commit toyEnv B32.zero (madeLeaf.commit toyEnv B32.zero [[]]).1).1.length < toyEnv.cfg.maxFiles := by decide +kernel
  have h2 : ∀ f ∈ (madeMore.commit toyEnv B32.zero (madeLeaf.commit toyEnv B32.zero [[]]).1).1, f.length ≤ toyEnv.cfg.maxFile := by decide +kernel
  have h3 : ((madeMore.commit toyEnv B32.zero (madeLeaf.commit toyEnv B32.zero [[]]).1).1.getLastD []).length % 38 = 0 := by decide +kernel
  dsimp only at c1
  generalize (madeLeaf.commit toyEnv B32.zero [[]]).1 = f1 at *
  exact C87_made toyEnv_ok c1 (d := madeMore) ⟨hs, trivial⟩ ⟨.inr keyOf_first, hl, by show ([5] : Bytes).length ≤ 1023; decide⟩ h1 h2 h3

end Urkel
