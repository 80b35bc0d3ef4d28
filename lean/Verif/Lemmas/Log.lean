import Verif.Spec.Log
import Verif.Lemmas.Witness
/-
Logged executions and the committed trees of the simulation.
-/
namespace Urkel
open PTree

theorem Logged.reachable {E : Env} {log : List (B32 × Contents)} {s : Sys} (h : Logged E log s) : Reachable E s := by
  induction h with
  | start h => exact ⟨[], .start h⟩
  | commit _ ha hs _ ih => exact ih.next ha hs
  | other _ ha hs _ ih => exact ih.next ha hs

/-- The step of the specification that a call of the library makes. -/
theorem Sim.next {E : Env} (hE : EnvOk E) {s s' : Sys} {sp : SpecDb} {hist : List PTree} (h : Sim E s sp hist) {op : Op} {r : Ret}
    (ha : Allowed E s op) (hs : step E s op = .ok (s', r)) :
    ∃ sp' hist', SpecStep E.H sp op r sp' ∧ Sim E s' sp' hist' := by
  obtain ⟨s2, r2, sp', hist', e, h3, h4⟩ := step_sim hE h op ha
  rw [hs] at e
  cases e
  exact ⟨sp', hist', h3, h4⟩

theorem Sim.shows {E : Env} {s : Sys} {sp : SpecDb} {hist : List PTree} (h : Sim E s sp hist) {id : Nat} {tx : Tx}
    (hid : s.txs id = some tx) {c : Contents} (hc : sp.txs id = some c) : Shows s.db tx c := by
  obtain ⟨tx', t, e1, _, ht, e2⟩ := h.tx (id := id) (by rw [hid]; simp)
  rw [hid] at e1; cases e1
  rw [hc] at e2; cases e2
  exact ht.shows h.db

/-- The current snapshot is unique unless two snapshots have the same root. -/
theorem Sim.create_none {E : Env} (hE : EnvOk E) {s : Sys} {sp : SpecDb} {hist : List PTree} (h : Sim E s sp hist) :
    ∃ db tx c, txCreate E s.db none = .ok (db, .ok tx) ∧ Shows db tx c ∧ sp.Snapshot E.H sp.root c := by
  obtain ⟨db', r, e, hs, _, hc⟩ := create_read hE h none
  rcases hc with ⟨tx, t, rfl, ht, hsn⟩ | ⟨rfl, hno⟩
  · exact ⟨db', tx, t.find, e, ht.shows hs.db, hsn⟩
  · obtain ⟨t, ht, hh⟩ := h.db.known
    refine (hno t.find (h.snapshot.2 ⟨t, ht, rfl, ?_⟩)).elim
    rw [hh]; exact h.root.symm

/-- A successful committing call adds exactly the announced contents. -/
theorem Sim.commits {E : Env} (hE : EnvOk E) {s s' : Sys} {sp : SpecDb} {hist : List PTree} (h : Sim E s sp hist) {op : Op}
    (ha : Allowed E s op) (hs : step E s op = .ok (s', .unit)) {c : Contents} (hc : Commits E s op c) :
    ∃ sp' hist', CommitTo E.H sp c sp' ∧ Sim E s' sp' hist' := by
  cases op with
  | commit id =>
    obtain ⟨tx, htx, hsh⟩ := hc
    obtain ⟨sp', hist', ⟨c', h1, _, h2⟩, h3⟩ := h.next hE ha hs
    have : c' = c := read_inj fun k => by rw [← h.shows htx h1 k, hsh k]
    subst this
    exact ⟨sp', hist', h2, h3⟩
  | insert1 k v =>
    obtain ⟨db0, tx0, c0, e0, hsh, rfl⟩ := hc
    obtain ⟨hlen, hcan⟩ := ha
    obtain ⟨db', tx, t, ks, e, hsim, htx, hsn, hv, hk, hroom⟩ := canCommit1_tree hE h hcan
    rw [e] at e0; cases e0
    have hf : t.find = c0 := htx.find_eq hsim.db hsh
    subst hf
    rcases hlen with hlen | hlen
    · obtain ⟨tx', e3, ht'⟩ := txInsert_ok hsim.db htx k (v := v) (by omega)
      obtain ⟨it, ifd⟩ := Top.insert htx.top k v
      obtain ⟨db2, tx2, sp', e4, e5, c1, c2⟩ := oneShot_commit hE hsim ht' (ks := k :: ks)
        (vals_set htx.top it ifd hv (by rintro _ ⟨⟩; exact hlen))
        (fun k' hk' => by
          rw [ifd, Contents.set_apply] at hk'
          split at hk'
          · next e => simp [e]
          · exact List.mem_cons_of_mem _ (hk k' hk'))
        (by simpa using hroom)
      simp only [step, urkelInsert, e, Res.bind_ok, e3, e4, e5, Res.pure_eq, Res.ok.injEq, Prod.mk.injEq] at hs
      rw [← hs.1, ← ifd]
      exact ⟨sp', _, c1, c2⟩
    · simp only [step, urkelInsert, e, Res.bind_ok, txInsert_big hlen, txDestroy_ok htx, Res.pure_eq, Res.ok.injEq,
        Prod.mk.injEq, Ret.ofUnit] at hs
      exact (nomatch hs.2)
  | remove1 k =>
    obtain ⟨db0, tx0, c0, e0, hsh, rfl⟩ := hc
    obtain ⟨db', tx, t, ks, e, hsim, htx, hsn, hv, hk, hroom⟩ := canCommit1_tree hE h ha
    rw [e] at e0; cases e0
    have hf : t.find = c0 := htx.find_eq hsim.db hsh
    subst hf
    have hr := txRemove_ok hsim.db htx k
    cases hf : t.find k with
    | none =>
      rw [hf] at hr
      simp only [step, urkelRemove, e, Res.bind_ok, hr, txDestroy_ok htx, Res.pure_eq, Res.ok.injEq,
        Prod.mk.injEq, Ret.ofUnit] at hs
      exact (nomatch hs.2)
    | some v =>
      rw [hf] at hr
      obtain ⟨tx', e3, ht'⟩ := hr
      obtain ⟨it, ifd⟩ := Top.remove htx.top hf
      obtain ⟨db2, tx2, sp', e4, e5, c1, c2⟩ := oneShot_commit hE hsim ht' (ks := k :: ks)
        (vals_set htx.top it ifd hv (by simp))
        (fun k' hk' => by
          rw [ifd, Contents.set_apply] at hk'
          split at hk'
          · next e => simp [e]
          · exact List.mem_cons_of_mem _ (hk k' hk'))
        (by simpa using hroom)
      simp only [step, urkelRemove, e, Res.bind_ok, e3, e4, e5, Res.pure_eq, Res.ok.injEq, Prod.mk.injEq] at hs
      rw [← hs.1, ← ifd]
      exact ⟨sp', _, c1, c2⟩
  | _ => exact hc.elim

/-- Committing calls have contents to announce. -/
theorem Sim.commits_exists {E : Env} (hE : EnvOk E) {s : Sys} {sp : SpecDb} {hist : List PTree} (h : Sim E s sp hist) {op : Op}
    (ha : Allowed E s op) : (∃ c, Commits E s op c) ∨ ∀ c, ¬ Commits E s op c := by
  exact Classical.em (∃ c, Commits E s op c) |>.imp id fun hn c hc => hn ⟨c, hc⟩

/-- Any other call leaves the list of committed contents alone. -/
theorem Sim.others {E : Env} (hE : EnvOk E) {s s' : Sys} {sp : SpecDb} {hist : List PTree} (h : Sim E s sp hist) {op : Op} {r : Ret}
    (ha : Allowed E s op) (hs : step E s op = .ok (s', r)) (hc : r ≠ .unit ∨ ∀ c, ¬ Commits E s op c) :
    ∃ sp' hist', sp'.hist = sp.hist ∧ Sim E s' sp' hist' := by
  obtain ⟨sp', hist', h1, h2⟩ := h.next hE ha hs
  refine ⟨sp', hist', ?_, h2⟩
  obtain ⟨db0, tx0, c0, e0, sh0, _⟩ := h.create_none hE
  cases op with
  | root => rw [h1.2]
  | inject h => rw [h1.2.2]
  | create id r =>
    rcases h1 with ⟨c, _, _, e⟩ | ⟨_, _, e⟩
    · rw [e]; rfl
    · rw [e]
  | destroy id => rw [h1.2]; rfl
  | clear id => rw [h1.2]; rfl
  | txRoot id => obtain ⟨c, h, _, _, _, e⟩ := h1; rw [e]
  | txInject id r =>
    rcases h1 with ⟨c, _, _, e⟩ | ⟨_, _, e⟩
    · rw [e]; rfl
    · rw [e]
  | get id k => obtain ⟨c, _, _, e⟩ := h1; rw [e]
  | has id k => obtain ⟨c, _, _, e⟩ := h1; rw [e]
  | insert id k v => obtain ⟨c, c', _, _, e⟩ := h1; rw [e]; rfl
  | remove id k => obtain ⟨c, c', _, _, e⟩ := h1; rw [e]; rfl
  | prove id k => obtain ⟨c, raw, _, _, _, e⟩ := h1; rw [e]
  | commit id =>
    obtain ⟨c, h3, h4, _⟩ := h1
    rcases hc with hc | hc
    · exact (hc h4).elim
    · obtain ⟨tx, htx, _⟩ := ha
      exact (hc c ⟨tx, htx, h.shows htx h3⟩).elim
  | reopen rand => obtain ⟨_, x, _, e⟩ := h1; rw [e]
  | get1 k r => rw [h1.2]
  | has1 k r => rw [h1.2]
  | prove1 k r => rw [h1.2]
  | insert1 k v =>
    obtain ⟨c, c', _, _, _, h5⟩ := h1
    rcases hc with hc | hc
    · rw [h5 hc]
    · exact (hc _ ⟨db0, tx0, c0, e0, sh0, rfl⟩).elim
  | remove1 k =>
    obtain ⟨c, c', _, _, _, h5⟩ := h1
    rcases hc with hc | hc
    · rw [h5 hc]
    · exact (hc _ ⟨db0, tx0, c0, e0, sh0, rfl⟩).elim

/-- The log is the list of committed contents with their roots. -/
theorem Logged.sim {E : Env} (hE : EnvOk E) {log : List (B32 × Contents)} {s : Sys} (h : Logged E log s) :
    ∃ sp hist, Sim E s sp hist ∧ sp.hist = log.map Prod.snd ∧ ∀ p ∈ log, IsRoot E.H p.2 p.1 := by
  induction h with
  | start h => exact ⟨_, _, start_sim h, rfl, by simp⟩
  | commit _ ha hs hc ih =>
    obtain ⟨sp, hist, h1, h2, h3⟩ := ih
    obtain ⟨sp', hist', ⟨r, hr, rfl⟩, h5⟩ := h1.commits hE ha hs hc
    refine ⟨_, hist', h5, by simp [h2], ?_⟩
    intro p hp
    rcases List.mem_cons.1 hp with rfl | hp
    · have : r = dbRoot _ := h5.root
      simp only [← this]; exact hr
    · exact h3 p hp
  | other _ ha hs hc ih =>
    obtain ⟨sp, hist, h1, h2, h3⟩ := ih
    obtain ⟨sp', hist', h4, h5⟩ := h1.others hE ha hs hc
    exact ⟨sp', hist', h5, by rw [h4, h2], h3⟩

/-- Every reachable state has a log. -/
theorem Reachable.logged {E : Env} (hE : EnvOk E) {s : Sys} (h : Reachable E s) : ∃ log, Logged E log s := by
  obtain ⟨tr, h⟩ := h
  induction h with
  | start h => exact ⟨[], .start h⟩
  | @step tr s s' op r hx ha hs ih =>
    obtain ⟨log, hl⟩ := ih
    obtain ⟨sp, hist, hsim, _⟩ := hl.sim hE
    by_cases hr : r = .unit
    · subst hr
      rcases hsim.commits_exists hE ha with ⟨c, hc⟩ | hn
      · exact ⟨_, .commit hl ha hs hc⟩
      · exact ⟨log, .other hl ha hs (Or.inr hn)⟩
    · exact ⟨log, .other hl ha hs (Or.inl hr)⟩

/-- Snapshots of the simulation and entries of the log. -/
theorem Sim.snapshot_log {E : Env} {s : Sys} {sp : SpecDb} {hist : List PTree} (h : Sim E s sp hist)
    {log : List (B32 × Contents)} (hl : sp.hist = log.map Prod.snd) (hr : ∀ p ∈ log, IsRoot E.H p.2 p.1) {r : B32} {c : Contents} :
    sp.Snapshot E.H r c ↔ (r, c) ∈ (B32.zero, Contents.empty) :: log := by
  have e0 : IsRoot E.H Contents.empty B32.zero := ⟨.null, Or.inl rfl, rfl, rfl⟩
  have uniq : ∀ {c a b}, IsRoot E.H c a → IsRoot E.H c b → a = b := by
    rintro c a b ⟨t, ht, rfl, rfl⟩ hb
    exact (IsRoot.iff ht).1 hb
  unfold SpecDb.Snapshot
  rw [hl, List.mem_cons, List.mem_cons]
  constructor
  · rintro ⟨rfl | hc, hroot⟩
    · exact Or.inl (by rw [uniq hroot e0])
    · obtain ⟨⟨a, b⟩, hm, rfl⟩ := List.mem_map.1 hc
      have := hr _ hm
      simp only at hroot this
      rw [uniq hroot this]
      exact Or.inr hm
  · rintro (e | hm)
    · cases e; exact ⟨Or.inl rfl, e0⟩
    · exact ⟨Or.inr (List.mem_map.2 ⟨_, hm, rfl⟩), hr _ hm⟩

theorem txCreate_revert {E : Env} {db db' : Db} {h : Option B32} {r : Except Err Tx} (e : txCreate E db h = .ok (db', r)) :
    db'.revert = db.revert := by
  unfold txCreate at e
  cases h with
  | some h =>
    obtain ⟨⟨s, n⟩, _, e⟩ := Res.bind_eq_ok.1 e
    cases n <;> cases e <;> rfl
  | none =>
    simp only at e
    split at e
    · obtain ⟨⟨s, n⟩, _, e⟩ := Res.bind_eq_ok.1 e
      cases n <;> cases e <;> rfl
    · cases e; rfl

theorem txCommit_revert {E : Env} {db db' : Db} {tx tx' : Tx} {r : Except Err Unit} (e : txCommit E db tx = .ok (db', tx', r)) :
    db'.revert = db.revert := by
  unfold txCommit at e
  obtain ⟨n, _, e⟩ := Res.bind_eq_ok.1 e
  obtain ⟨⟨s, n⟩, _, e⟩ := Res.bind_eq_ok.1 e
  cases n with
  | none => cases e; rfl
  | some root =>
    obtain ⟨⟨s, ok⟩, _, e⟩ := Res.bind_eq_ok.1 e
    cases ok <;> cases e <;> rfl

/-- Only `urkel_inject` makes the database revert to an older root. -/
theorem step_revert {E : Env} {s s' : Sys} {op : Op} {r : Ret} (e : step E s op = .ok (s', r)) (hi : ∀ h, op ≠ .inject h)
    (hrv : s.db.revert = false) : s'.db.revert = false := by
  cases op with
  | root => cases e; exact hrv
  | inject h => exact (hi h rfl).elim
  | create id h =>
    simp only [step] at e
    obtain ⟨⟨db, x⟩, e1, e⟩ := Res.bind_eq_ok.1 e
    have := txCreate_revert e1
    cases x <;> cases e <;> simpa [Sys.setTx, this] using hrv
  | destroy id | clear id | txRoot id | insert id k v | remove id k =>
    simp only [step] at e
    obtain ⟨_, _, e⟩ := Res.bind_eq_ok.1 e
    obtain ⟨_, _, e⟩ := Res.bind_eq_ok.1 e
    cases e; exact hrv
  | get id k | has id k =>
    simp only [step] at e
    obtain ⟨_, _, e⟩ := Res.bind_eq_ok.1 e
    obtain ⟨_, _, e⟩ := Res.bind_eq_ok.1 e
    cases e; exact hrv
  | txInject id h =>
    simp only [step] at e
    obtain ⟨t, _, e⟩ := Res.bind_eq_ok.1 e
    obtain ⟨⟨db, t', x⟩, e1, e⟩ := Res.bind_eq_ok.1 e
    cases e
    unfold txInject at e1
    obtain ⟨⟨st, n⟩, _, e1⟩ := Res.bind_eq_ok.1 e1
    cases n with
    | none => cases e1; exact hrv
    | some n =>
      obtain ⟨_, _, e1⟩ := Res.bind_eq_ok.1 e1
      cases e1; exact hrv
  | prove id k =>
    simp only [step] at e
    obtain ⟨_, _, e⟩ := Res.bind_eq_ok.1 e
    obtain ⟨x, _, e⟩ := Res.bind_eq_ok.1 e
    rcases x with x | ⟨t, raw⟩ <;> cases e <;> exact hrv
  | commit id =>
    simp only [step] at e
    obtain ⟨t, _, e⟩ := Res.bind_eq_ok.1 e
    obtain ⟨⟨db, t', x⟩, e1, e⟩ := Res.bind_eq_ok.1 e
    have := txCommit_revert e1
    cases e
    simpa [Sys.setTx, this] using hrv
  | reopen rand =>
    simp only [step] at e
    obtain ⟨⟨d, x⟩, e1, e⟩ := Res.bind_eq_ok.1 e
    unfold dbOpen at e1
    obtain ⟨⟨d1, y⟩, _, e1⟩ := Res.bind_eq_ok.1 e1
    cases y with
    | none => cases e1; cases e
    | some st => cases e1; cases e; rfl
  | get1 k h =>
    simp only [step, urkelGet] at e
    obtain ⟨⟨db, x⟩, e1, e⟩ := Res.bind_eq_ok.1 e
    obtain ⟨⟨db0, y⟩, e0, e1⟩ := Res.bind_eq_ok.1 e1
    have := txCreate_revert e0
    cases y with
    | error => cases e1; cases e; simpa [this] using hrv
    | ok t =>
      obtain ⟨_, _, e1⟩ := Res.bind_eq_ok.1 e1
      obtain ⟨_, _, e1⟩ := Res.bind_eq_ok.1 e1
      cases e1; cases e; simpa [this] using hrv
  | has1 k h =>
    simp only [step, urkelHas] at e
    obtain ⟨⟨db, x⟩, e1, e⟩ := Res.bind_eq_ok.1 e
    obtain ⟨⟨db0, y⟩, e0, e1⟩ := Res.bind_eq_ok.1 e1
    have := txCreate_revert e0
    cases y with
    | error => cases e1; cases e; simpa [this] using hrv
    | ok t =>
      obtain ⟨_, _, e1⟩ := Res.bind_eq_ok.1 e1
      obtain ⟨_, _, e1⟩ := Res.bind_eq_ok.1 e1
      cases e1; cases e; simpa [this] using hrv
  | prove1 k h =>
    simp only [step, urkelProve] at e
    obtain ⟨⟨db, x⟩, e1, e⟩ := Res.bind_eq_ok.1 e
    obtain ⟨⟨db0, y⟩, e0, e1⟩ := Res.bind_eq_ok.1 e1
    have := txCreate_revert e0
    cases y with
    | error => cases e1; cases e; simpa [this] using hrv
    | ok t =>
      obtain ⟨z, _, e1⟩ := Res.bind_eq_ok.1 e1
      rcases z with z | ⟨t, raw⟩ <;> obtain ⟨_, _, e1⟩ := Res.bind_eq_ok.1 e1 <;> cases e1 <;> cases e <;>
        simpa [this] using hrv
  | insert1 k v =>
    simp only [step, urkelInsert] at e
    obtain ⟨⟨db, x⟩, e1, e⟩ := Res.bind_eq_ok.1 e
    obtain ⟨⟨db0, y⟩, e0, e1⟩ := Res.bind_eq_ok.1 e1
    have h0 := txCreate_revert e0
    cases y with
    | error => cases e1; cases e; simpa [h0] using hrv
    | ok t =>
      obtain ⟨⟨t1, z⟩, _, e1⟩ := Res.bind_eq_ok.1 e1
      rcases z with z | ⟨⟨⟩⟩
      · obtain ⟨_, _, e1⟩ := Res.bind_eq_ok.1 e1
        cases e1; cases e; simpa [h0] using hrv
      · obtain ⟨⟨db2, t2, z2⟩, e2, e1⟩ := Res.bind_eq_ok.1 e1
        have h2 := txCommit_revert e2
        obtain ⟨_, _, e1⟩ := Res.bind_eq_ok.1 e1
        cases e1; cases e; simpa [h0, h2] using hrv
  | remove1 k =>
    simp only [step, urkelRemove] at e
    obtain ⟨⟨db, x⟩, e1, e⟩ := Res.bind_eq_ok.1 e
    obtain ⟨⟨db0, y⟩, e0, e1⟩ := Res.bind_eq_ok.1 e1
    have h0 := txCreate_revert e0
    cases y with
    | error => cases e1; cases e; simpa [h0] using hrv
    | ok t =>
      obtain ⟨⟨t1, z⟩, _, e1⟩ := Res.bind_eq_ok.1 e1
      rcases z with z | ⟨⟨⟩⟩
      · obtain ⟨_, _, e1⟩ := Res.bind_eq_ok.1 e1
        cases e1; cases e; simpa [h0] using hrv
      · obtain ⟨⟨db2, t2, z2⟩, e2, e1⟩ := Res.bind_eq_ok.1 e1
        have h2 := txCommit_revert e2
        obtain ⟨_, _, e1⟩ := Res.bind_eq_ok.1 e1
        cases e1; cases e; simpa [h0, h2] using hrv

theorem Exec.revert {E : Env} {tr : List (Op × Ret)} {s : Sys} (h : Exec E tr s) (hn : NoInject tr) :
    s.db.revert = false := by
  induction h with
  | start h =>
    obtain ⟨rand, d, db, e, rfl⟩ := h
    unfold dbOpen at e
    obtain ⟨⟨d1, y⟩, _, e⟩ := Res.bind_eq_ok.1 e
    cases y with
    | none => cases e
    | some st => cases e; rfl
  | @step tr s s' op r _ _ hs ih =>
    refine step_revert hs (fun h e => ?_) (ih fun h r hm => hn h r (List.mem_append_left _ hm))
    subst e
    exact hn h r (by simp)

end Urkel
