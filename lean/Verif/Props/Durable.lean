import Verif.Props.Snapshots
import Verif.Lemmas.Misalign
import Verif.Lemmas.Faults
import Verif.Spec.Crash
/-
C23-C28: closing, opening, crashing.
-/
namespace Urkel
open PTree

/-- The files end at a multiple of the record size: always so as long as the data
fits one file. -/
def Aligned (db : Db) : Prop := db.store.files.length = 1 ∨ (db.store.files.getLastD []).length % 38 = 0

theorem Aligned.mod {E : Env} {db : Db} {hist : List PTree} (h : Aligned db) (hd : DInv E db hist) :
    (db.store.files.getLastD []).length % 38 = 0 := by
  rcases h with h | h
  · have := hd.inv.ali h
    rw [List.getLastD_eq_getLast?]; exact this
  · exact h

/-- C23, as far as it is true: after any history of calls, closing and opening
succeeds, changes no byte of the directory, and gives a database that reports the
root of the newest commit and shows its contents. If `urkel_inject` was not
used, that is the root reported before closing. Missing: databases in which the
padding before the last commit record has started a new file; for them the claim
is false (`C23_reopen_false`). -/
theorem C23_reopen_partial {E : Env} (hE : EnvOk E) {log : List (B32 × Contents)} {s : Sys} (hl : Logged E log s)
    (hal : Aligned s.db) (rand : B32) :
    ∃ db' tx, dbOpen E s.db.dir rand = .ok (s.db.dir, .ok db') ∧ dbRoot db' = (log.map Prod.fst).headD B32.zero ∧
      txCreate E db' none = .ok (db', .ok tx) ∧ Shows db' tx ((log.map Prod.snd).headD Contents.empty) ∧
      ((∃ tr, Exec E tr s ∧ NoInject tr) → dbRoot db' = dbRoot s.db) := by
  obtain ⟨sp, hist, hs, e1, e2⟩ := hl.sim hE
  obtain ⟨db', e, hd', hf, hk, hh, hrv⟩ := reopen_ok hE hs.db (hal.mod hs.db) rand
  have hlast : (log.map Prod.snd).headD Contents.empty = (hist.headD .null).find := by
    rw [← e1, hs.hist]; cases hist <;> rfl
  have htop : (hist.headD .null).Top ∧ (hist.headD .null).ValsLe 1023 := RootIs.tx hd'.inv hd'.inv.root (SInv.head_mem hist)
  refine ⟨db', ⟨some db'.store.state.rootNode⟩, e, ?_, ?_, ?_, ?_⟩
  · rw [dbRoot, hh]
    cases hlg : log with
    | nil =>
      rw [hlg] at e1
      have : hist = [] := by
        have := hs.hist.symm.trans e1
        cases hist with
        | nil => rfl
        | cons a b => simp at this
      subst this; rfl
    | cons p ps =>
      refine (IsRoot.iff htop.1).1 ?_
      rw [← hlast, hlg]
      exact e2 p (by rw [hlg]; simp)
  · simp only [txCreate]
    rw [if_neg (by simp [hrv])]
  · rw [hlast]
    exact TxIs.shows hd' ⟨_, rfl, hd'.inv.root.repr, htop.1, htop.2⟩
  · rintro ⟨tr, hx, hni⟩
    have := hs.db.cur (hx.revert hni)
    rw [dbRoot, hh, dbRoot, this]

example : ∃ (s : Sys) (h1 h2 : B32), Logged toyEnv [(h2, demoC2), (h1, demoC1)] s ∧ Aligned s.db ∧ h1 ≠ h2 := by
  obtain ⟨s, h1, h2, g, hne, _⟩ := demo2
  exact ⟨s, h1, h2, g.logged, Or.inl g.one, hne⟩

/-- The history that loses a commit: empty commits (`s0`) until one file is almost
full, then one more commit (`s3`) whose record lands misaligned in a new file. Opening
then is opening as it was before the last commit. -/
theorem lost_commit {E : Env} (hE : EnvOk E) (hc : E.cfg = realCfg) (k rand : B32) :
    ∃ (log : List (B32 × Contents)) (s0 s3 : Sys), Logged E log s0 ∧ (∀ p ∈ log, p.2 = Contents.empty) ∧ Aligned s0.db ∧
      Logged E ((dbRoot s3.db, Contents.ofList [(k, [])]) :: log) s3 ∧ s3.db.revert = false ∧
      dbOpen E s3.db.dir rand = dbOpen E s0.db.dir rand ∧
      (∃ s2, s2.db = s0.db ∧ Allowed E s0 (.insert 0 k []) ∧ step E s0 (.insert 0 k []) = .ok (s2, .unit) ∧ Allowed E s2 (.commit 0) ∧
        step E s2 (.commit 0) = .ok (s3, .unit) ∧ Commits E s2 (.commit 0) (Contents.ofList [(k, [])])) ∧ s0.db.store.files.length = 1 ∧
      (s3.db.store.files.getLastD []).length % 38 ≠ 0 ∧ NoMagic s0.db.store.files s3.db.store.files := by
  obtain ⟨s, ⟨log, hl, hll, hle⟩, htx, hrv, f, hf, hfl⟩ := empties hE hc 56512618 (by omega)
  obtain ⟨hist, t, hd, ht⟩ := hl.reachable.tree hE htx
  have hsh : Shows s.db ⟨some .null⟩ Contents.empty := by
    intro k
    have : ∀ f, treeGet s.db.store k true (f + 1) .null 0 = .err .ENOTFOUND := fun _ => rfl
    simp only [txGet, Tx.node, Res.bind_ok]
    exact this 599
  -- insert
  have step1 : ∀ f, treeInsert E s.db.store k [] (f + 1) .null 0 = .ok (createLeaf E.H k []) := fun _ => rfl
  have e1 : txInsert E s.db ⟨some .null⟩ k [] = .ok (⟨some (createLeaf E.H k [])⟩, .ok ()) := by
    unfold txInsert
    rw [if_neg (by decide)]
    simp only [Tx.node, Res.bind_ok]
    rw [show treeFuel = 599 + 1 from rfl, step1 599]
    rfl
  have e2 : step E s (.insert 0 k []) = .ok (s.setTx 0 (some ⟨some (createLeaf E.H k [])⟩), .unit) := by
    simp only [step, Sys.tx, htx, Res.bind_ok, e1]; rfl
  have hl2 := Logged.other (op := .insert 0 k []) hl (by simp [Allowed, htx]) e2 (Or.inr fun c hc => hc.elim)
  obtain ⟨tx2, e1', g2, _⟩ := C01_read_your_writes hE hl.reachable htx k [] (by decide)
  rw [e1] at e1'; cases e1'
  generalize hs2 : s.setTx 0 (some ⟨some (createLeaf E.H k [])⟩) = s2 at *
  have hdb2 : s2.db = s.db := by rw [← hs2]; rfl
  have htx2 : s2.txs 0 = some ⟨some (createLeaf E.H k [])⟩ := by rw [← hs2]; simp [Sys.setTx]
  obtain ⟨hist2, t2, hd2, ht2⟩ := hl2.reachable.tree hE htx2
  -- commit
  have hsh2 : Shows s2.db ⟨some (createLeaf E.H k [])⟩ (Contents.ofList [(k, [])]) := by
    obtain ⟨tx', e, ht'⟩ := txInsert_ok hd ht k (v := []) (by simp)
    rw [e1] at e; cases e
    rw [hdb2]
    have := ht'.shows hd
    rw [(Top.insert ht.top k []).2, ht.find_eq hd hsh] at this
    exact this
  have hcan : CanCommit E s2.db ⟨some (createLeaf E.H k [])⟩ := by
    refine canCommit_of hd2 ht2 hsh2 (ofList_vals (l := [(k, [])]) (by simp)) [k] ofList_keys ?_
    simp only [HasRoom, hc, realCfg, hdb2, hf, show [f].getLastD [] = f from rfl, hfl, List.length_singleton]
    omega
  obtain ⟨hv, hcap⟩ := canCommit_tree hd2 ht2 hcan
  obtain ⟨db3, tx3, e3, hd3, ht3, hcm, hh, hrv3⟩ := txCommit_ok hE hd2 ht2 hv hcap
  have e4 : step E s2 (.commit 0) = .ok (({ s2 with db := db3 } : Sys).setTx 0 (some tx3), .unit) := by
    simp only [step, Sys.tx, htx2, Res.bind_ok, e3, Res.pure_eq]; rfl
  have hr3 := hl2.reachable.next (op := .commit 0) ⟨_, htx2, hcan⟩ e4
  -- what is in the files
  have hu : used E.cfg.maxFile s2.db.store.files + 232 < E.cfg.maxFile * E.cfg.maxFiles := by
    rw [hdb2, hc, hf]; simp only [used, lastLen, realCfg]; simp [hfl]
  obtain ⟨vp, m, lay⟩ := leaf_layout hE hd2 k (f := f) (by rw [hdb2, hf]) (by omega) (by rw [hc]; simp only [realCfg]; omega)
    (by rw [hc]; simp only [realCfg]; omega) hu e3
  -- opening sees only the empty commits
  have hkey : db3.store.key = s.db.store.key := by rw [hcm.key, hdb2]
  have h38 : metaSize = 38 := rfl
  have hclean : ∀ (j : Nat) (g : Bytes) (n : Nat), db3.store.files[j]? = some g → (s.db.store.files.getD j []).length ≤ metaSize * n →
      metaSize * n + metaSize ≤ g.length → leNat ((slot g n).take 4) ≠ metaMagic := by
    intro j g n hg a b
    rw [lay] at hg
    rw [hf] at a
    rw [h38] at a b
    have hmg : ∀ b : Bytes, b.length = 3 → leNat (2 :: b) ≠ metaMagic ∧ leNat (0 :: b) ≠ metaMagic := by
      intro b hb
      match b, hb with
      | [x, y, z], _ =>
        have h1 := x.toNat_lt; have h2 := y.toNat_lt; have h3 := z.toNat_lt
        constructor <;> simp only [leNat, metaMagic] <;> simp <;> omega
    cases j with
    | zero =>
      simp only [List.getElem?_cons_zero, Option.some.injEq] at hg
      subst hg
      simp only [List.getD_cons_zero] at a
      rw [List.length_append, length_leafRec, hfl] at b
      have hn : n = 56512618 := by omega
      subst hn
      have hsl : slot (f ++ leafRec vp k) 56512618 = (leafRec vp k).take 38 := by
        unfold slot
        rw [h38, ← hfl, List.drop_left]
      rw [hsl, List.take_take]
      have hlr : (leafRec vp k).take 4 = 2 :: ((ptrWrite vp ++ k.bytes).take 3) := by
        unfold leafRec; rfl
      rw [show min 4 38 = 4 from rfl, hlr]
      exact (hmg _ (by simp [k.len])).1
    | succ j =>
      cases j with
      | succ j => simp at hg
      | zero =>
        simp only [List.getElem?_cons_succ, List.getElem?_cons_zero, Option.some.injEq] at hg
        subst hg
        rw [List.length_append, length_metaWrite hE.mac, h38, List.length_replicate] at b
        have hn : n = 0 := by omega
        subst hn
        unfold slot
        rw [h38, Nat.mul_zero, List.drop_zero, List.take_take, show min 4 38 = 4 from rfl,
          List.take_append_of_le_length (by simp)]
        exact (hmg [0, 0, 0] rfl).2
  have himg : openStore E db3.dir rand = openStore E s.db.dir rand := by
    have hdir : db3.dir = ⟨some s.db.store.key.bytes, db3.store.files⟩ := by unfold Db.dir; rw [hkey]
    rw [hdir]
    refine open_image hE hd.inv ?_ (by have := hcm.ext; rw [hdb2] at this; exact this) ?_ ?_ _ rand (dir_key s.db rand)
    · exact hd.inv.ali (by rw [hf]; rfl)
    · intro j g n a b c hv
      exact hclean j g n a b c hv.1
    · intro _ j g n a b c
      exact hclean j g n a b c
  have hopen : dbOpen E db3.dir rand = dbOpen E s.db.dir rand := by
    unfold dbOpen
    rw [himg]
  have hrv3' : db3.revert = false := by rw [hrv3, hdb2, hrv]
  refine ⟨log, s, _, hl, hle, Or.inl (by rw [hf]; rfl),
    Logged.commit (op := .commit 0) hl2 ⟨_, htx2, hcan⟩ e4 ⟨_, htx2, hsh2⟩, hrv3', hopen,
    ⟨s2, hdb2, by simp [Allowed, htx], e2, ⟨_, htx2, hcan⟩, e4, _, htx2, hsh2⟩, by rw [hf]; rfl, ?_, hclean⟩
  show (db3.store.files.getLastD []).length % 38 ≠ 0
  rw [lay]
  simp only [List.getLastD_cons, List.getLastD_nil, List.length_append, List.length_replicate, length_metaWrite hE.mac, h38]
  decide

/-- C23 is false: there is a history of commits (all empty except the last one,
which adds one key with an empty value) after which the database shows the key
and, closed and opened again, does not. -/
theorem C23_reopen_false {E : Env} (hE : EnvOk E) (hc : E.cfg = realCfg) (k rand : B32) :
    ∃ s tx db' tx' d, Reachable E s ∧ txCreate E s.db none = .ok (s.db, .ok tx) ∧ txGet s.db tx k = .ok [] ∧
      dbOpen E s.db.dir rand = .ok (d, .ok db') ∧ txCreate E db' none = .ok (db', .ok tx') ∧
      txGet db' tx' k = .err .ENOTFOUND := by
  obtain ⟨log, s0, s3, hl, hle, hal, hl3, hrv, hopen, _⟩ := lost_commit hE hc k rand
  obtain ⟨db0, tx0, o1, o2, o3, o4, _⟩ := C23_reopen_partial hE hl hal rand
  refine ⟨s3, ⟨some s3.db.store.state.rootNode⟩, db0, tx0, s0.db.dir, hl3.reachable, ?_, ?_, hopen.trans o1, o3, ?_⟩
  · simp only [txCreate]
    rw [if_neg (by simp [hrv])]
  · obtain ⟨sp, hist, hs, e1, _⟩ := hl3.sim hE
    obtain ⟨a, b⟩ := RootIs.tx hs.db.inv hs.db.inv.root (SInv.head_mem hist)
    have hti : TxIs E s3.db ⟨some s3.db.store.state.rootNode⟩ (hist.headD .null) := ⟨_, rfl, hs.db.inv.root.repr, a, b⟩
    have hlast : (hist.headD .null).find = Contents.ofList [(k, [])] := by
      have := hs.hist.symm.trans e1
      cases hist with
      | nil => simp at this
      | cons t ts =>
        simp only [List.map_cons, List.cons.injEq] at this
        exact this.1
    rw [hti.shows hs.db k, hlast]
    simp [Contents.ofList, Contents.set, Contents.read]
  · rw [o4 k]
    cases hlg : log with
    | nil => rfl
    | cons p ps =>
      have := hle p (by rw [hlg]; simp)
      simp only [List.map_cons, List.headD_cons, this]
      rfl

example : EnvOk toyEnv ∧ toyEnv.cfg = realCfg := ⟨toyEnv_ok, rfl⟩

end Urkel
