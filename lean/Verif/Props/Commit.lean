import Verif.Lemmas.Log
import Verif.Lemmas.BigValue
import Verif.Props.Map
/-
C16-C22: commits, isolation, snapshots by root hash, inject, clear.
-/
namespace Urkel
open PTree

/-- C16, as far as it is true: a commit of values of at most 255 bytes succeeds
and changes neither a read nor the root hash of the transaction.
Missing: values of 256 to 1023 bytes, for which the claim is false
(`C16_commit_preserves_false`). -/
theorem C16_commit_preserves_partial {E : Env} (hE : EnvOk E) {s : Sys} (hr : Reachable E s) {id : Nat} {tx : Tx}
    (hid : s.txs id = some tx) (hc : CanCommit E s.db tx) :
    ∃ db' tx' a b r, txCommit E s.db tx = .ok (db', tx', .ok ()) ∧ (∀ k, txGet db' tx' k = txGet s.db tx k) ∧
      (∀ k, txHas db' tx' k = txHas s.db tx k) ∧ txRoot E tx = .ok (a, r) ∧ txRoot E tx' = .ok (b, r) := by
  obtain ⟨hist, t, hd, ht⟩ := hr.tree hE hid
  obtain ⟨hv, hcap⟩ := canCommit_tree hd ht hc
  obtain ⟨db', tx', e, hd', ht', _⟩ := txCommit_ok hE hd ht hv hcap
  obtain ⟨a, ea, _⟩ := txRoot_ok ht
  obtain ⟨b, eb, _⟩ := txRoot_ok ht'
  exact ⟨db', tx', a, b, _, e, fun k => by rw [ht'.shows hd', ht.shows hd],
    fun k => by rw [txHas_ok hd' ht', txHas_ok hd ht], ea, eb⟩

example : ∃ s tx, Reachable toyEnv s ∧ s.txs 0 = some tx ∧ txGet s.db tx (keyOf 1) = .ok (List.replicate 255 9) ∧
    CanCommit toyEnv s.db tx := by
  obtain ⟨s, tx, a, b, c, f, _⟩ := reach_list toyEnv_ok [(keyOf 1, List.replicate 255 9), (keyOf 3, [])]
    (by intro p hp; rcases List.mem_cons.1 hp with rfl | hp
        · rw [List.length_replicate]; omega
        · rw [List.mem_singleton.1 hp]; exact Nat.zero_le _)
  obtain ⟨hist, t, hd, ht⟩ := a.tree toyEnv_ok b
  refine ⟨s, tx, a, b, by rw [c]; rfl, canCommit_of hd ht c (ofList_vals ?_) [keyOf 1, keyOf 3] ofList_keys ?_⟩
  · intro p hp
    rcases List.mem_cons.1 hp with rfl | hp
    · rw [List.length_replicate]; exact Nat.le_refl _
    · rw [List.mem_singleton.1 hp]; exact Nat.zero_le _
  · rw [f]; simp [HasRoom, toyEnv, realCfg]

/-- C16 is false for values longer than 255 bytes: inserting such a value into a
transaction of a new database and committing succeeds, and then the transaction
reads only the first `length mod 256` bytes. -/
theorem C16_commit_preserves_false {E : Env} (hE : EnvOk E) (hcfg : E.cfg = realCfg) (k : B32) (v : Bytes)
    (hlo : 255 < v.length) (hhi : v.length ≤ 1023) :
    ∃ s tx db' tx', Reachable E s ∧ s.txs 0 = some tx ∧ txGet s.db tx k = .ok v ∧
      txCommit E s.db tx = .ok (db', tx', .ok ()) ∧ txGet db' tx' k = .ok (v.take (v.length % 256)) ∧
      v.take (v.length % 256) ≠ v := by
  obtain ⟨s, tx, a, b, c, f, hrv, hz⟩ := reach_list hE [] (by simp)
  obtain ⟨hist, t, hd, ht⟩ := a.tree hE b
  have hnull : t = .null := find_inj ht.top (Or.inl rfl) (by rw [ht.find_eq hd c]; rfl)
  subst hnull
  have hn : tx.root = some .null := by
    obtain ⟨n, hn, hrep, _⟩ := ht
    cases n with
    | null => exact hn
    | hash h p => exact hrep.1.elim
    | internal => obtain ⟨_, _, _, h, _⟩ := hrep; cases h
    | leaf => obtain ⟨_, h, _⟩ := hrep; cases h
  have step1 : ∀ f, treeInsert E s.db.store k v (f + 1) .null 0 = .ok (createLeaf E.H k v) := fun _ => rfl
  have e1 : txInsert E s.db tx k v = .ok (⟨some (createLeaf E.H k v)⟩, .ok ()) := by
    unfold txInsert
    rw [if_neg (by unfold valueSize; omega)]
    simp only [Tx.node, hn, Res.bind_ok]
    rw [show treeFuel = 599 + 1 from rfl, step1 599]
    rfl
  have e2 : step E s (.insert 0 k v) = .ok (s.setTx 0 (some ⟨some (createLeaf E.H k v)⟩), .unit) := by
    simp only [step, Sys.tx, b, Res.bind_ok, e1]; rfl
  obtain ⟨db', tx', e3, e4⟩ := bigLeaf_commit hE hd k v hhi (by
    rw [hcfg, f]; simp only [used, lastLen, realCfg]; simp; omega)
  obtain ⟨tx2, e5, e6, _⟩ := C01_read_your_writes hE a b k v hhi
  rw [e1] at e5; cases e5
  refine ⟨s.setTx 0 (some ⟨some (createLeaf E.H k v)⟩), _, db', tx', a.next (op := .insert 0 k v) (by simp [Allowed, b]) e2,
    by simp [Sys.setTx], e6, e3, e4, ?_⟩
  intro h
  have := congrArg List.length h
  rw [List.length_take] at this
  omega

/-- C17. After a successful commit the database reports the transaction's root,
and a new transaction shows the committed contents (exactly if `urkel_inject` has
not been called, and otherwise unless two committed trees collide under the hash). -/
theorem C17_commit_publishes {E : Env} (hE : EnvOk E) {s : Sys} (hr : Reachable E s) {id : Nat} {tx : Tx}
    (hid : s.txs id = some tx) (hc : CanCommit E s.db tx) :
    ∃ db' tx' a db'' new c c', txCommit E s.db tx = .ok (db', tx', .ok ()) ∧ Shows s.db tx c ∧
      txRoot E tx = .ok (a, dbRoot db') ∧ txCreate E db' none = .ok (db'', .ok new) ∧ Shows db'' new c' ∧
      (c' = c ∨ TreesCollide E.H c c') ∧ ((∃ tr, Exec E tr s ∧ NoInject tr) → c' = c) := by
  obtain ⟨hist, t, hd, ht⟩ := hr.tree hE hid
  obtain ⟨hv, hcap⟩ := canCommit_tree hd ht hc
  obtain ⟨db', tx', e, hd', ht', _, hh, hrv⟩ := txCommit_ok hE hd ht hv hcap
  obtain ⟨a, ea, _⟩ := txRoot_ok ht
  obtain ⟨db'', r, ec, hd'', hsame, hcase⟩ := txCreate_ok hE hd' none
  rcases hcase with ⟨new, u, rfl, hu, huh, hnew, hrev⟩ | ⟨rfl, hno⟩
  · refine ⟨db', tx', a, db'', new, t.find, u.find, e, ht.shows hd, by rw [ea, dbRoot, hh], ec, hnew.shows hd'', ?_, ?_⟩
    · have huh : u.hash E.H = t.hash E.H := by rw [huh, Option.getD_none, hh]
      rcases hash_inj (H := E.H) (S := t.inputs E.H ++ u.inputs E.H) (p := []) ht.top hnew.top
        (fun x h => List.mem_append_left _ h) (fun x h => List.mem_append_right _ h) huh.symm with hb | rfl
      · exact Or.inr ⟨t, u, ht.top, hnew.top, rfl, rfl, hb⟩
      · exact Or.inl rfl
    · rintro ⟨tr, hx, hni⟩
      have hf := hx.revert hni
      rw [hrev rfl (by rw [hrv, hf])]
      rfl
  · exact (hno t (by simp) (by rw [Option.getD_none, hh])).elim

example : ∃ s tx, Reachable toyEnv s ∧ s.txs 0 = some tx ∧ txGet s.db tx (keyOf 1) = .ok [7] ∧ CanCommit toyEnv s.db tx := by
  obtain ⟨s, tx, a, b, c, f, _⟩ := reach_list toyEnv_ok [(keyOf 1, [7])] (by simp)
  obtain ⟨hist, t, hd, ht⟩ := a.tree toyEnv_ok b
  refine ⟨s, tx, a, b, by rw [c]; rfl, canCommit_of hd ht c (ofList_vals (by simp)) [keyOf 1] ofList_keys ?_⟩
  rw [f]; simp [HasRoom, toyEnv, realCfg]

end Urkel
