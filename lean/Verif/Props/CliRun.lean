import Verif.Props.Cli
import Verif.Props.Proofs
/-
C62: what the commands of the tool do.
-/
namespace Urkel
open PTree

/-- A database that the tool has opened. -/
structure Opened (E : Env) (log : List (B32 × Contents)) (d : Dir) (db : Db) (sp : SpecDb) (hist : List PTree) : Prop where
  logged : Logged E log ⟨db, fun _ => none⟩
  rev : db.revert = false
  sim : Sim E ⟨db, fun _ => none⟩ sp hist
  hist : sp.hist = log.map Prod.snd
  roots : ∀ p ∈ log, IsRoot E.H p.2 p.1
  count : db.store.files.length = max 1 d.files.length
  size : (db.store.files.getLastD []).length = (d.files.getLastD []).length

theorem open_holds {E : Env} (hE : EnvOk E) {d : Dir} {log : List (B32 × Contents)} (h : HoldsLog E d log) (ha : d.Aligned) (rand : B32) :
    ∃ d1 db sp hist, dbOpen E d rand = .ok (d1, .ok db) ∧ Opened E log d db sp hist := by
  rcases h with ⟨rfl, rfl⟩ | ⟨s, hl, rfl⟩
  · obtain ⟨s', e1, i, k, f, rh⟩ := open_empty (E := E) (d := Dir.fresh) (rand := rand) (key := rand) rfl
      (by intro j f n h; simp [Dir.fresh] at h) (by intro j f n h; simp [Dir.fresh] at h)
    have e2 : dbOpen E Dir.fresh rand = .ok (⟨some (Dir.fresh.keyFile.getD rand.bytes), [[]]⟩, .ok ⟨s', rootHash s', false⟩) := by
      simp only [dbOpen, e1, Res.bind_ok, Res.pure_eq]
    have hst : Started E ⟨⟨s', rootHash s', false⟩, fun _ => none⟩ := ⟨rand, _, _, e2, rfl⟩
    exact ⟨_, _, _, _, e2, .start hst, rfl, start_sim hst, rfl, by simp, by simp [f, Dir.fresh], by simp [f, Dir.fresh]⟩
  · obtain ⟨sp, hist, hs, e1, e2⟩ := hl.sim hE
    have ha' : (s.db.store.files.getLastD []).length % 38 = 0 := ha
    obtain ⟨db, e, hd, hf, _, _, hrv⟩ := reopen_ok hE hs.db ha' rand
    have e3 : step E s (.reopen rand) = .ok (⟨db, fun _ => none⟩, .unit) := by
      simp only [step, e, Res.bind_ok, Res.pure_eq]
    have hl' := hl.other (op := .reopen rand) ha' e3 (Or.inr fun c hc => hc.elim)
    obtain ⟨sp', hist', hs', e1', e2'⟩ := hl'.sim hE
    refine ⟨_, db, sp', hist', e, hl', hrv, hs', e1', e2', ?_, ?_⟩
    · rw [hf]
      have : s.db.store.files ≠ [] := by
        obtain ⟨i, l, e, _⟩ := hs.db.inv.slab.sok.files_snoc
        rw [e]; simp
      have := List.length_pos_iff.2 this
      show _ = max 1 s.db.store.files.length
      omega
    · rw [hf]; rfl

theorem Opened.newest {E : Env} {log : List (B32 × Contents)} {d : Dir} {db : Db} {sp : SpecDb} {hist : List PTree} (h : Opened E log d db sp hist) :
    newest log = (hist.headD .null).find := by
  have h1 := h.sim.last
  unfold SpecDb.last at h1
  rw [h.hist] at h1
  exact h1

/-- The transaction for `-r`. -/
theorem Opened.select {E : Env} (hE : EnvOk E) {log : List (B32 × Contents)} {d : Dir} {db : Db} {sp : SpecDb} {hist : List PTree} (h : Opened E log d db sp hist)
    (root : Option B32) : ∃ db' r, txCreate E db root = .ok (db', r) ∧ DInv E db' hist ∧ db'.dir = db.dir ∧ dbRoot db' = dbRoot db ∧
      ((∃ tx t, r = .ok tx ∧ TxIs E db' tx t ∧ Selects log root t.find) ∨
        (r = .error .ENOTFOUND ∧ ∀ c, ¬ Selects log root c)) := by
  cases root with
  | none =>
    obtain ⟨e, ht⟩ := create_last h.sim h.rev
    exact ⟨db, _, e, h.sim.db, rfl, rfl, Or.inl ⟨_, _, rfl, ht, h.newest.symm⟩⟩
  | some r =>
    obtain ⟨db', x, e, hs, hsame, hc⟩ := create_read hE h.sim (some r)
    have hdir : db'.dir = db.dir := by
      unfold Db.dir
      rw [hsame.store.files, hsame.store.key]
    refine ⟨db', x, e, hs.db, hdir, hsame.hash, ?_⟩
    rcases hc with ⟨tx, t, rfl, ht, hsn⟩ | ⟨hx, hn⟩
    · exact Or.inl ⟨tx, t, rfl, ht, (h.sim.snapshot_log h.hist h.roots).1 hsn⟩
    · exact Or.inr ⟨hx, fun c hc => hn c ((h.sim.snapshot_log h.hist h.roots).2 hc)⟩

/-- Without the value `urkel_iter_next` stops at the same leaf. -/
theorem keyLoop_of {s : Store} {it' : Iter} {k : B32} {x : Bytes} : ∀ (fuel : Nat) {it : Iter}, nextLoop s fuel it = .ok (it', .ok (k, x)) →
    keyLoop s fuel it = .ok (it', .ok k)
  | 0, it, h => by cases h
  | fuel + 1, it, h => by
    rw [nextLoop] at h
    rw [keyLoop]
    obtain ⟨⟨it1, r⟩, e1, h⟩ := Res.bind_eq_ok.1 h
    rw [e1, Res.bind_ok]
    simp only at h ⊢
    cases r with
    | error e => cases h
    | ok u =>
      simp only at h ⊢
      split at h
      · next k' v vp hn =>
        obtain ⟨o, e2, h⟩ := Res.bind_eq_ok.1 h
        cases o with
        | none => cases h
        | some y =>
          cases h
          simp only [hn]
          rfl
      · next hn =>
        have := keyLoop_of fuel h
        split
        · next h1 q k1 v1 vp1 hk => exact (hn _ _ _ _ _ hk).elim
        · exact this

theorem keyLoop_end {s : Store} {it' : Iter} : ∀ (fuel : Nat) {it : Iter}, nextLoop s fuel it = .ok (it', .error .EITEREND) →
    keyLoop s fuel it = .ok (it', .error .EITEREND)
  | 0, it, h => by cases h
  | fuel + 1, it, h => by
    rw [nextLoop] at h
    rw [keyLoop]
    obtain ⟨⟨it1, r⟩, e1, h⟩ := Res.bind_eq_ok.1 h
    rw [e1, Res.bind_ok]
    simp only at h ⊢
    cases r with
    | error e => cases h; rfl
    | ok u =>
      simp only at h ⊢
      split at h
      · next k' v vp hn =>
        obtain ⟨o, e2, h⟩ := Res.bind_eq_ok.1 h
        cases o with
        | none => cases h
        | some y => cases h
      · next hn =>
        have := keyLoop_end fuel h
        split
        · next h1 q k1 v1 vp1 hk => exact (hn _ _ _ _ _ hk).elim
        · exact this

theorem listLoop_ok {H : HashFn} {db : Db} : ∀ (l : List (B32 × Bytes)) {it : Iter} {m : Nat}, IterAt H db.store.rd it l m → m ≤ 256 →
    ∀ (fuel : Nat) (out : Bytes), l.length < fuel → listLoop db fuel it out = .ok (out ++ l.flatMap (fun p => hexLine p.1.bytes), .EITEREND) := by
  intro l
  induction l with
  | nil =>
    intro it m hi hm fuel out hf
    obtain ⟨fuel, rfl⟩ : ∃ n, fuel = n + 1 := ⟨fuel - 1, by simp at hf; omega⟩
    have hn := iterNext_ok hi
    generalize hx : iterNext db it = x at hn
    cases hn with
    | abort c => omega
    | stop c d =>
      rw [listLoop]
      rw [show iterNextKey db it = _ from keyLoop_end _ hx]
      simp
  | cons p l ih =>
    intro it m hi hm fuel out hf
    obtain ⟨fuel, rfl⟩ : ∃ n, fuel = n + 1 := ⟨fuel - 1, by simp at hf; omega⟩
    have hn := iterNext_ok hi
    generalize hx : iterNext db it = x at hn
    cases hn with
    | abort c => omega
    | pair c d =>
      rw [listLoop]
      rw [show iterNextKey db it = _ from keyLoop_of _ hx]
      simp only [Res.bind_ok]
      rw [ih c (d.1 hm) fuel _ (by simp at hf; omega)]
      simp

theorem infoLoop_ok {H : HashFn} {db : Db} : ∀ (l : List (B32 × Bytes)) {it : Iter} {m : Nat}, IterAt H db.store.rd it l m → m ≤ 256 →
    ∀ (fuel items size : Nat), l.length < fuel →
      infoLoop db fuel it items size = .ok (items + l.length, size + (l.map fun p => 32 + p.2.length).sum, .EITEREND) := by
  intro l
  induction l with
  | nil =>
    intro it m hi hm fuel items size hf
    obtain ⟨fuel, rfl⟩ : ∃ n, fuel = n + 1 := ⟨fuel - 1, by simp at hf; omega⟩
    have hn := iterNext_ok hi
    generalize hx : iterNext db it = x at hn
    cases hn with
    | abort c => omega
    | stop c d =>
      rw [infoLoop, hx]
      simp
  | cons p l ih =>
    intro it m hi hm fuel items size hf
    obtain ⟨fuel, rfl⟩ : ∃ n, fuel = n + 1 := ⟨fuel - 1, by simp at hf; omega⟩
    have hn := iterNext_ok hi
    generalize hx : iterNext db it = x at hn
    cases hn with
    | abort c => omega
    | pair c d =>
      rw [infoLoop, hx]
      simp only [Res.bind_ok]
      rw [ih c (d.1 hm) fuel _ _ (by simp at hf; omega)]
      simp [Nat.add_assoc, Nat.add_comm 1]

/-- The iterator for `-r`. -/
theorem Opened.iterate {E : Env} (hE : EnvOk E) {log : List (B32 × Contents)} {d : Dir} {db : Db} {sp : SpecDb} {hist : List PTree} (h : Opened E log d db sp hist)
    (root : Option B32) (hsh : ∀ c, Selects log root c → Shallow 127 c) :
    ∃ db' r, urkelIterate E db root = .ok (db', r) ∧ db'.dir = db.dir ∧ dbRoot db' = dbRoot db ∧
      ((∃ it l m c, r = .ok it ∧ Selects log root c ∧ Lists l c ∧ IterAt E.H db'.store.rd it l m ∧ m ≤ 256) ∨
        (r = .error .ENOTFOUND ∧ ∀ c, ¬ Selects log root c)) := by
  obtain ⟨db', r, e, hd, h1, h2, hc⟩ := h.select hE root
  rcases hc with ⟨tx, t, rfl, ht, hsel⟩ | ⟨rfl, hn⟩
  · have htop := ht.top
    obtain ⟨n, hn, hrep, _, _⟩ := ht
    rw [← rd_of hd] at hrep
    obtain ⟨it, m, e2, hi, hm, _⟩ := iterCreate_ok hn hrep htop
    refine ⟨db', .ok it, ?_, h1, h2, Or.inl ⟨it, _, m, _, rfl, hsel, Top.lists htop, hi, ?_⟩⟩
    · simp only [urkelIterate, e, Res.bind_ok, e2, Res.pure_eq]
    · have h1 := cost_le n t
      have h2 := (Top.shallow_iff htop 127).1 (hsh _ hsel)
      omega
  · exact ⟨db', _, by simp only [urkelIterate, e, Res.bind_ok, Res.pure_eq], h1, h2, Or.inr ⟨rfl, hn⟩⟩

theorem Opened.root {E : Env} {log : List (B32 × Contents)} {d : Dir} {db : Db} {sp : SpecDb} {hist : List PTree} (h : Opened E log d db sp hist) :
    IsRoot E.H (Urkel.newest log) (dbRoot db) := by
  rw [h.newest, show dbRoot db = _ from h.sim.db.cur h.rev]
  exact .of_tree (h.sim.db.top (SInv.head_mem hist))

theorem Opened.same {E : Env} {log : List (B32 × Contents)} {d : Dir} {db : Db} {sp : SpecDb} {hist : List PTree} (h : Opened E log d db sp hist) (ha : d.Aligned) :
    HoldsLog E db.dir log ∧ db.dir.Aligned := by
  refine ⟨Or.inr ⟨_, h.logged, rfl⟩, ?_⟩
  unfold Dir.Aligned at ha ⊢
  rw [← h.size] at ha
  exact ha

theorem Opened.can {E : Env} {log : List (B32 × Contents)} {d : Dir} {db : Db} {sp : SpecDb} {hist : List PTree} (h : Opened E log d db sp hist)
    (hf : Fits E d (Urkel.newest log)) : CanCommit1 E db ∧ (hist.headD .null).ValsLe 255 ∧
      ∃ ks : List B32, (∀ k, ((hist.headD .null).find k).isSome → k ∈ ks) ∧ HasRoom E db.store.files (408 * (ks.length + 1) + 76) := by
  obtain ⟨hv, ks, hk, hroom⟩ := hf
  rw [h.newest] at hv hk
  obtain ⟨e, ht⟩ := create_last h.sim h.rev
  have hr : HasRoom E db.store.files (408 * (ks.length + 1) + 76) := by
    unfold HasRoom
    have h1 := h.size
    have h2 := h.count
    rw [h1, h2]
    have h3 : max 1 d.files.length * E.cfg.maxFile ≤ (d.files.length + 1) * E.cfg.maxFile := Nat.mul_le_mul_right _ (by omega)
    exact Nat.lt_of_le_of_lt (Nat.add_le_add_right (Nat.add_le_add_right h3 _) _) hroom
  refine ⟨?_, (PTree.Top.valsLe_iff ht.top).2 hv, ks, fun k hk' => hk k (by intro e; rw [e] at hk'; cases hk'), hr⟩
  intro db' tx e'
  rw [e] at e'
  cases e'
  refine ⟨fun k v hg => hv k v ?_, ks, fun k hg => hk k ?_, hr⟩
  · rw [txGet_ok h.sim.db ht] at hg
    cases hx : (hist.headD .null).find k with
    | none => rw [hx] at hg; cases hg
    | some y => rw [hx] at hg; cases hg; rfl
  · intro hx
    rw [txHas_ok h.sim.db ht, hx] at hg
    cases hg

theorem Opened.write {E : Env} (hE : EnvOk E) {log : List (B32 × Contents)} {d : Dir} {db : Db} {sp : SpecDb} {hist : List PTree} (h : Opened E log d db sp hist)
    {tx : Tx} {t : PTree} (ht : TxIs E db tx t) (hv : t.ValsLe 255) {ks : List B32} (hk : ∀ k, (t.find k).isSome → k ∈ ks)
    (hr : HasRoom E db.store.files (408 * ks.length + 76)) :
    ∃ db2 tx2, txCommit E db tx = .ok (db2, tx2, .ok ()) ∧ txDestroy tx2 = .ok () ∧ IsRoot E.H t.find (dbRoot db2) ∧
      (db2.dir.files.length ≤ max 1 d.files.length → db2.dir.Aligned) := by
  obtain ⟨db2, tx2, e, hd, ht', hc, hh, _⟩ := txCommit_ok hE h.sim.db ht hv (room_of ht.top hv hk hr)
  refine ⟨db2, tx2, e, txDestroy_ok ht', by rw [show dbRoot db2 = _ from hh]; exact .of_tree ht.top, ?_⟩
  intro hl
  have h1 : db2.store.files.length ≤ max 1 d.files.length := hl
  have h2 : db.store.files.length ≤ db2.store.files.length := hc.ext.length_le
  have h0 := h.count
  have h3 : db2.store.state.metaPtr.pos % metaSize = 0 := hc.aligned (Nat.le_antisymm (by show _ ≤ db.store.files.length; omega) h2)
  rcases hd.inv.tail with ⟨h4, _⟩ | ⟨_, h4⟩
  · cases h4
  · unfold Dir.Aligned
    show (db2.store.files.getLastD []).length % 38 = 0
    rw [List.getLastD_eq_getLast?]
    have : lastLen db2.store.files % 38 = 0 := by
      have h5 : metaSize = 38 := rfl
      rw [h5] at h3 h4
      omega
    exact this

theorem hexLine_eq : hexLine = hexText := by
  have h : ∀ n : Fin 16, base16Charset.getD n.val 0 = lowerDigit n.val := by decide +kernel
  have key : ∀ b : Bytes, base16Encode b = b.flatMap fun x => [lowerDigit (x.toNat / 16), lowerDigit (x.toNat % 16)] := by
    intro b
    induction b with
    | nil => rfl
    | cons x b ih =>
      have hx := x.toNat_lt
      rw [base16Encode, ih, h ⟨x.toNat / 16, by omega⟩, h ⟨x.toNat % 16, by omega⟩]
      rfl
  funext b
  rw [hexLine, key]
  rfl

/-- `Effect` in the words of the model. -/
def Effects (H : HashFn) (log : List (B32 × Contents)) (root : Option B32) (cmd : Cmd) (e : Exit) (log' : List (B32 × Contents)) : Prop :=
  match cmd with
  | .create => e = .good [] ∧ log' = log
  | .root => (∃ h, IsRoot H (newest log) h ∧ e = .good (hexLine h.bytes)) ∧ log' = log
  | .get k => AtRoot log root (fun c => e = match c k with | some v => .good (hexLine v) | none => .bad "Value not found.\n")
      (e = .bad "Value not found.\n") ∧ log' = log
  | .insert k v =>
    if v.length ≤ 1023 then e = .good [] ∧ ∃ h, IsRoot H ((newest log).set k (some v)) h ∧ log' = (h, (newest log).set k (some v)) :: log
    else e = .bad "Could not write value.\n" ∧ log' = log
  | .remove k =>
    match newest log k with
    | some _ => e = .good [] ∧ ∃ h, IsRoot H ((newest log).set k none) h ∧ log' = (h, (newest log).set k none) :: log
    | none => e = .bad "Could not remove value.\n" ∧ log' = log
  | .list => AtRoot log root (fun c => ∃ l, Lists l c ∧ e = .good (l.flatMap fun p => hexLine p.1.bytes)) (e = .bad "Could not create iterator.\n") ∧ log' = log
  | .info => AtRoot log root (fun c => ∃ l h, Lists l c ∧ IsRoot H (newest log) h ∧
      e = .good (txt "Items: " ++ ulong l.length ++ [10] ++ txt "Size:  " ++ ulong ((l.map fun p => 32 + p.2.length).sum) ++ [10] ++ txt "Root:  " ++ hexLine h.bytes))
      (e = .bad "Could not create iterator.\n") ∧ log' = log
  | .prove k => AtRoot log root (fun c => ∃ raw, GoodProof H c k raw ∧ e = .good (hexLine raw)) (e = .bad "Could not write value.\n") ∧ log' = log
  | .destroy | .verify _ _ => False

theorem Effects.effect {H : HashFn} {log log' : List (B32 × Contents)} {root : Option B32} {cmd : Cmd} {e : Exit} (h : Effects H log root cmd e log') :
    Effect H log root cmd e log' := by
  cases cmd <;> simp only [Effects, hexLine_eq] at h <;> exact h

theorem commands_ok {E : Env} (hE : EnvOk E) {d : Dir} {log : List (B32 × Contents)} (h : HoldsLog E d log) (ha : d.Aligned) (root : Option B32) (cmd : Cmd)
    (hok : CmdOk E d log root cmd) (rand : B32) (destroy : Dir → Res (Dir × Bool)) :
    ∃ n d' e log', (∀ fuel ≥ n, cliMain E fuel rand destroy d root cmd = .ok (d', e)) ∧ Effects E.H log root cmd e log' ∧ HoldsLog E d' log' ∧
      (d'.files.length ≤ max 1 d.files.length → d'.Aligned) := by
  obtain ⟨d1, db, sp, hist, eo, ho⟩ := open_holds hE h ha rand
  obtain ⟨hh, hal⟩ := ho.same ha
  cases cmd with
  | destroy => exact hok.elim
  | verify => exact hok.elim
  | create =>
    refine ⟨0, db.dir, .good [], log, fun fuel _ => ?_, ⟨rfl, rfl⟩, hh, fun _ => hal⟩
    simp only [cliMain, eo, Res.bind_ok, cmdOn, Res.pure_eq]
  | root =>
    refine ⟨0, db.dir, .good (hexLine (dbRoot db).bytes), log, fun fuel _ => ?_, ⟨⟨_, ho.root, rfl⟩, rfl⟩, hh, fun _ => hal⟩
    simp only [cliMain, eo, Res.bind_ok, cmdOn, Res.pure_eq]
  | get k =>
    obtain ⟨db', r, e, hd, hdir, _, hc⟩ := ho.select hE root
    rcases hc with ⟨tx, t, rfl, ht, hsel⟩ | ⟨rfl, hn⟩
    · cases hf : t.find k with
      | none =>
        refine ⟨0, db.dir, .bad "Value not found.\n", log, fun fuel _ => ?_, ⟨Or.inl ⟨_, hsel, by simp only [hf]⟩, rfl⟩, hh, fun _ => hal⟩
        simp only [cliMain, eo, Res.bind_ok, cmdOn, urkelGet, e, txGet_ok hd ht, hf, lookupRes, catchErr, txDestroy_ok ht, Res.pure_eq, hdir]
      | some v =>
        refine ⟨0, db.dir, .good (hexLine v), log, fun fuel _ => ?_, ⟨Or.inl ⟨_, hsel, by simp only [hf]⟩, rfl⟩, hh, fun _ => hal⟩
        simp only [cliMain, eo, Res.bind_ok, cmdOn, urkelGet, e, txGet_ok hd ht, hf, lookupRes, catchErr, txDestroy_ok ht, Res.pure_eq, hdir, if_true]
    · refine ⟨0, db.dir, .bad "Value not found.\n", log, fun fuel _ => ?_, ⟨Or.inr ⟨hn, rfl⟩, rfl⟩, hh, fun _ => hal⟩
      simp only [cliMain, eo, Res.bind_ok, cmdOn, urkelGet, e, Res.pure_eq, hdir]
  | prove k =>
    obtain ⟨db', r, e, hd, hdir, _, hc⟩ := ho.select hE root
    rcases hc with ⟨tx, t, rfl, ht, hsel⟩ | ⟨rfl, hn⟩
    · obtain ⟨tx', raw, e3, ht', hraw, _⟩ := txProve_ok hd ht k
      refine ⟨0, db.dir, .good (hexLine raw), log, fun fuel _ => ?_, ⟨Or.inl ⟨_, hsel, raw, ?_, rfl⟩, rfl⟩, hh, fun _ => hal⟩
      · simp only [cliMain, eo, Res.bind_ok, cmdOn, urkelProve, e, e3, catchErr, txDestroy_ok ht', Res.pure_eq, hdir]
      · rw [hraw]; exact goodProof ht.top ht.vals k
    · refine ⟨0, db.dir, .bad "Could not write value.\n", log, fun fuel _ => ?_, ⟨Or.inr ⟨hn, rfl⟩, rfl⟩, hh, fun _ => hal⟩
      simp only [cliMain, eo, Res.bind_ok, cmdOn, urkelProve, e, Res.pure_eq, hdir]
  | list =>
    obtain ⟨db', r, e, hdir, _, hc⟩ := ho.iterate hE root hok
    rcases hc with ⟨it, l, m, c, rfl, hsel, hl, hi, hm⟩ | ⟨rfl, hn⟩
    · refine ⟨l.length + 1, db.dir, .good (l.flatMap fun p => hexLine p.1.bytes), log, fun fuel hf => ?_, ⟨Or.inl ⟨c, hsel, l, hl, rfl⟩, rfl⟩, hh, fun _ => hal⟩
      simp only [cliMain, eo, Res.bind_ok, cmdOn, cmdList, e, listLoop_ok l hi hm fuel [] (by omega), Res.pure_eq, hdir, List.nil_append, ne_eq, not_true_eq_false, if_false]
    · refine ⟨0, db.dir, .bad "Could not create iterator.\n", log, fun fuel _ => ?_, ⟨Or.inr ⟨hn, rfl⟩, rfl⟩, hh, fun _ => hal⟩
      simp only [cliMain, eo, Res.bind_ok, cmdOn, cmdList, e, Res.pure_eq, hdir]
  | info =>
    obtain ⟨db', r, e, hdir, hrt, hc⟩ := ho.iterate hE root hok
    rcases hc with ⟨it, l, m, c, rfl, hsel, hl, hi, hm⟩ | ⟨rfl, hn⟩
    · refine ⟨l.length + 1, db.dir, _, log, fun fuel hf => ?_, ⟨Or.inl ⟨c, hsel, l, dbRoot db, hl, ho.root, rfl⟩, rfl⟩, hh, fun _ => hal⟩
      simp only [cliMain, eo, Res.bind_ok, cmdOn, cmdInfo, e, infoLoop_ok l hi hm fuel 0 0 (by omega), Res.pure_eq, hdir, Nat.zero_add, ne_eq, not_true_eq_false, if_false, hrt]
    · refine ⟨0, db.dir, .bad "Could not create iterator.\n", log, fun fuel _ => ?_, ⟨Or.inr ⟨hn, rfl⟩, rfl⟩, hh, fun _ => hal⟩
      simp only [cliMain, eo, Res.bind_ok, cmdOn, cmdInfo, e, Res.pure_eq, hdir]
  | insert k v =>
    obtain ⟨e, ht⟩ := create_last ho.sim ho.rev
    simp only at e ht
    rcases hok with ⟨hlen, hfit⟩ | hlen
    · obtain ⟨hcan, hv, ks, hk, hroom⟩ := ho.can hfit
      obtain ⟨tx', e3, ht'⟩ := txInsert_ok ho.sim.db ht k (v := v) (by omega)
      obtain ⟨it, ifd⟩ := Top.insert ht.top k v
      obtain ⟨db2, tx2, e4, e5, hr, hal2⟩ := ho.write hE ht' (ks := k :: ks)
        (vals_set ht.top it ifd hv (by rintro _ ⟨⟩; exact hlen))
        (fun k' hk' => by
          rw [ifd, Contents.set_apply] at hk'
          split at hk'
          · next e => simp [e]
          · exact List.mem_cons_of_mem _ (hk k' hk'))
        (by simpa using hroom)
      rw [ifd, ← ho.newest] at hr
      have e6 : urkelInsert E db k v = .ok (db2, .ok ()) := by
        simp only [urkelInsert, e, Res.bind_ok, e3, e4, e5, Res.pure_eq]
      have e7 : step E ⟨db, fun _ => none⟩ (.insert1 k v) = .ok (⟨db2, fun _ => none⟩, .unit) := by
        simp only [step, e6, Res.bind_ok, Res.pure_eq]; rfl
      have hl := ho.logged.commit (op := .insert1 k v) (c := (Urkel.newest log).set k (some v)) ⟨Or.inl hlen, hcan⟩ e7
        ⟨db, _, _, e, ht.shows ho.sim.db, by rw [ho.newest]⟩
      refine ⟨0, db2.dir, .good [], _, fun fuel _ => ?_, ?_, Or.inr ⟨_, hl, rfl⟩, hal2⟩
      · simp only [cliMain, eo, Res.bind_ok, cmdOn, e6, Res.pure_eq]
      · unfold Effects
        dsimp only
        rw [if_pos (by omega)]
        exact ⟨rfl, _, hr, rfl⟩
    · refine ⟨0, db.dir, .bad "Could not write value.\n", log, fun fuel _ => ?_, ?_, hh, fun _ => hal⟩
      · simp only [cliMain, eo, Res.bind_ok, cmdOn, urkelInsert, e, txInsert_big hlen, txDestroy_ok ht, Res.pure_eq]
      · unfold Effects
        dsimp only
        rw [if_neg (by omega)]
        exact ⟨rfl, rfl⟩
  | remove k =>
    obtain ⟨e, ht⟩ := create_last ho.sim ho.rev
    simp only at e ht
    have hr := txRemove_ok ho.sim.db ht k
    cases hf : (hist.headD .null).find k with
    | none =>
      rw [hf] at hr
      simp only at hr
      refine ⟨0, db.dir, .bad "Could not remove value.\n", log, fun fuel _ => ?_, ?_, hh, fun _ => hal⟩
      · simp only [cliMain, eo, Res.bind_ok, cmdOn, urkelRemove, e, hr, txDestroy_ok ht, Res.pure_eq]
      · unfold Effects
        dsimp only
        rw [ho.newest, hf]
        exact ⟨rfl, rfl⟩
    | some v =>
      rw [hf] at hr
      obtain ⟨tx', e3, ht'⟩ := hr
      obtain ⟨hcan, hv, ks, hk, hroom⟩ := ho.can hok
      obtain ⟨it, ifd⟩ := Top.remove ht.top hf
      obtain ⟨db2, tx2, e4, e5, hr, hal2⟩ := ho.write hE ht' (ks := k :: ks)
        (vals_set ht.top it ifd hv (by simp))
        (fun k' hk' => by
          rw [ifd, Contents.set_apply] at hk'
          split at hk'
          · next e => simp [e]
          · exact List.mem_cons_of_mem _ (hk k' hk'))
        (by simpa using hroom)
      have e6 : urkelRemove E db k = .ok (db2, .ok ()) := by
        simp only [urkelRemove, e, Res.bind_ok, e3, e4, e5, Res.pure_eq]
      have e7 : step E ⟨db, fun _ => none⟩ (.remove1 k) = .ok (⟨db2, fun _ => none⟩, .unit) := by
        simp only [step, e6, Res.bind_ok, Res.pure_eq]; rfl
      have hl := ho.logged.commit (op := .remove1 k) (c := (Urkel.newest log).set k none) hcan e7
        ⟨db, _, _, e, ht.shows ho.sim.db, by rw [ho.newest]⟩
      refine ⟨0, db2.dir, .good [], _, fun fuel _ => ?_, ?_, Or.inr ⟨_, hl, rfl⟩, hal2⟩
      · simp only [cliMain, eo, Res.bind_ok, cmdOn, e6, Res.pure_eq]
      · unfold Effects
        dsimp only
        rw [ho.newest, hf]
        rw [ifd] at hr
        exact ⟨rfl, _, hr, rfl⟩

/-- C62 (partial: within the limits of `CmdOk`: values have at most 255 bytes or more than 1023, no key
parts from the others at more than 127 positions, the data files end at a multiple of the
record size). On a directory that holds the commits in `log`, every command terminates,
prints what `Effect` says, exits with 0 exactly when it has done its work, and leaves a
directory that holds what `Effect` says; the next command can then be run, unless a new
data file had to be started. -/
theorem C62_commands_partial {E : Env} (hE : EnvOk E) {d : Dir} {log : List (B32 × Contents)} (h : HoldsLog E d log) (ha : d.Aligned) (root : Option B32) (cmd : Cmd)
    (hok : CmdOk E d log root cmd) (rand : B32) (destroy : Dir → Res (Dir × Bool)) :
    ∃ n d' e log', (∀ fuel ≥ n, cliMain E fuel rand destroy d root cmd = .ok (d', e)) ∧ Effect E.H log root cmd e log' ∧ HoldsLog E d' log' ∧
      (d'.files.length ≤ max 1 d.files.length → d'.Aligned) := by
  obtain ⟨n, d', e, log', h1, h2, h3, h4⟩ := commands_ok hE h ha root cmd hok rand destroy
  exact ⟨n, d', e, log', h1, h2.effect, h3, h4⟩

/-- A database with two commits, and every command on it within the limits. -/
example : ∃ (d : Dir) (h1 h2 : B32), HoldsLog toyEnv d [(h2, demoC2), (h1, demoC1)] ∧ d.Aligned ∧
    CmdOk toyEnv d [(h2, demoC2), (h1, demoC1)] none (.insert (keyOf 3) [1, 2, 3]) ∧ CmdOk toyEnv d [(h2, demoC2), (h1, demoC1)] none (.remove (keyOf 1)) ∧
    CmdOk toyEnv d [(h2, demoC2), (h1, demoC1)] (some h1) .list ∧ Selects [(h2, demoC2), (h1, demoC1)] (some h1) demoC1 ∧
    newest [(h2, demoC2), (h1, demoC1)] (keyOf 1) = some [7] := by
  obtain ⟨s, h1, h2, g, hne, hz, _⟩ := demo2
  obtain ⟨sp, hist, hs, _, _⟩ := g.logged.sim toyEnv_ok
  have hl : (s.db.dir.files.getLastD []).length = lastLen s.db.store.files := by
    rw [List.getLastD_eq_getLast?]; rfl
  have hfit : Fits toyEnv s.db.dir demoC2 := by
    refine ⟨?_, [keyOf 1, keyOf 129], ofList_keys, ?_⟩
    · exact ofList_vals (by decide)
    · have h3 := g.one
      have h4 := g.size
      have h5 : s.db.dir.files.length = 1 := h3
      have h6 : toyEnv.cfg.maxFile = 0x7ffff000 := rfl
      have h7 : toyEnv.cfg.maxFiles = 0x7fff := rfl
      rw [h5, hl, h6, h7]
      simp only [List.length_cons, List.length_nil]
      omega
  refine ⟨s.db.dir, h1, h2, Or.inr ⟨s, g.logged, rfl⟩, ?_, Or.inl ⟨by decide, hfit⟩, hfit, ?_, ?_, rfl⟩
  · unfold Dir.Aligned
    rw [hl]
    exact hs.db.inv.ali g.one
  · intro c hc
    have hk : ∀ k, c k ≠ none → k ∈ [keyOf 1, keyOf 129] := by
      simp only [Selects, List.mem_cons, Prod.mk.injEq, List.not_mem_nil, or_false] at hc
      rcases hc with ⟨e, _⟩ | ⟨e, _⟩ | ⟨_, rfl⟩
      · exact (hz e).elim
      · exact (hne e).elim
      · intro k hk
        have := ofList_keys k hk
        simp only [List.map_cons, List.map_nil, List.mem_singleton] at this
        rw [this]; exact .head _
    exact shallow_of_keys hk (by decide)
  · simp [Selects]

/-- C62: the tool on a command line. -/
theorem C62_cli_partial {E : Env} (hE : EnvOk E) {env : Option Bytes} {argv : List Bytes} {path : Bytes} {root : Option B32} {cmd : Cmd}
    (hline : Line E.H env argv path root cmd) {fs : Bytes → Dir} {log : List (B32 × Contents)} (h : HoldsLog E (fs path) log) (ha : (fs path).Aligned)
    (hok : CmdOk E (fs path) log root cmd) (rand : B32) (destroy : Dir → Res (Dir × Bool)) :
    ∃ n fs' e log', (∀ fuel ≥ n, cli E fuel rand destroy fs env argv = .ok (fs', e)) ∧ Effect E.H log root cmd e log' ∧ HoldsLog E (fs' path) log' ∧
      (∀ p, p ≠ path → fs' p = fs p) ∧ ((fs' path).files.length ≤ max 1 (fs path).files.length → (fs' path).Aligned) := by
  obtain ⟨n, d', e, log', h1, h2, h3, h4⟩ := C62_commands_partial hE h ha root cmd hok rand destroy
  refine ⟨n, fun p => if p = path then d' else fs p, e, log', fun fuel hf => ?_, h2, by simp only [if_true]; exact h3, fun p hp => if_neg hp, ?_⟩
  · unfold cli
    rw [(C61_line _ _ _ _ _ _).2 hline]
    simp only [h1 fuel hf, Res.bind_ok, Res.pure_eq]
  · simp only [if_true]
    exact h4

/-- C62: `verify` accepts what `prove` printed, for the root of the snapshot, and prints the
value if there is one. -/
theorem C62_prove_verify (E : Env) (fuel : Nat) (rand : B32) (destroy : Dir → Res (Dir × Bool)) (fs : Bytes → Dir) (env : Option Bytes) {c : Contents}
    {k : B32} {raw : Bytes} (hp : GoodProof E.H c k raw) : ∃ root, IsRoot E.H c root ∧
      cli E fuel rand destroy fs env [txt "verify", base16Encode k.bytes, base16Encode raw, txt "-r", base16Encode root.bytes] =
        .ok (fs, .prints (match c k with | some v => hexText v | none => [])) := by
  obtain ⟨root, hr, hv⟩ := hp
  refine ⟨root, hr, ?_⟩
  have hx : ∀ b : Bytes, IsHex (base16Encode b) b := fun b => (isHex_iff _ _).2 (hexBytes_encode b)
  have hdash : ∀ b s' : Bytes, base16Encode b ≠ 45 :: s' := by
    intro b s' e
    cases b with
    | nil => cases e
    | cons x b =>
      have h1 := hx (x :: b)
      rw [e] at h1
      cases h1 with
      | cons h2 => simp [digit] at h2
  have hl : Line E.H env [txt "verify", base16Encode k.bytes, base16Encode raw, txt "-r", base16Encode root.bytes] ((none.or env).getD (txt ".")) (some root) (.verify k raw) := by
    refine ⟨[.operand (txt "verify"), .operand (base16Encode k.bytes), .operand (base16Encode raw), .root false (base16Encode root.bytes)], rfl, ?_, ?_, rfl, ?_, ?_⟩
    · intro i hi
      simp only [List.mem_cons, List.not_mem_nil, or_false] at hi
      rcases hi with rfl | rfl | rfl | rfl
      · have : txt "verify" = [118, 101, 114, 105, 102, 121] := by decide +kernel
        intro s' e; rw [this] at e; cases e
      · exact hdash _
      · exact hdash _
      · exact ⟨root, hx _⟩
    · simp [List.filterMap_cons, Item.operand?]
    · simp only [List.filterMap_cons, Item.root?, List.filterMap_nil, List.getLast?_singleton]
      exact ⟨root, rfl, hx _⟩
    · exact .verify [] (hx _) (hx _)
  unfold cli
  rw [(C61_line _ _ _ _ _ _).2 hl]
  simp only [cliMain, cmdVerify, hv, Res.bind_ok, Res.pure_eq]
  congr 2
  · funext p
    split
    · next e => rw [e]
    · rfl
  · rw [← hexLine_eq]; cases c k <;> rfl

/-- C62: `destroy` says whether it worked. -/
theorem C62_destroy (E : Env) (fuel : Nat) (rand : B32) (destroy : Dir → Res (Dir × Bool)) (fs : Bytes → Dir) {env : Option Bytes} {argv : List Bytes}
    {path : Bytes} {root : Option B32} (hline : Line E.H env argv path root .destroy) {d : Dir} {ok : Bool} (hd : destroy (fs path) = .ok (d, ok)) :
    ∃ fs', cli E fuel rand destroy fs env argv = .ok (fs', if ok = true then .prints [] else .complains "Could not destroy database.\n") ∧
      fs' path = d ∧ ∀ p, p ≠ path → fs' p = fs p :=
  C61_runs E fuel rand destroy fs hline (by simp only [cliMain, hd, Res.bind_ok, Res.pure_eq]; rfl)

/-- C62: if `verify` exits with 0, what it prints is the truth about the contents with this
root, unless the hash is broken. -/
theorem C62_verify_sound {H : HashFn} {c : Contents} {root k : B32} (hr : IsRoot H c root) (hv : ∀ k v, c k = some v → v.length ≤ 1023) {raw out err : Bytes}
    (h : cmdVerify H k raw (some root) = .ok ⟨out, err, 0⟩) :
    out = (match c k with | some v => hexText v | none => []) ∨
      ∃ t : PTree, t.Top ∧ t.find = c ∧ BrokenOn H (t.inputs H ++ verifyInputs H raw k) := by
  obtain ⟨t, ht, rfl, rfl⟩ := hr
  unfold cmdVerify at h
  simp only at h
  obtain ⟨r, e1, h⟩ := Res.bind_eq_ok.1 h
  obtain ⟨ret, ex, v⟩ := r
  cases ret with
  | error x => cases h
  | ok u =>
    obtain ⟨p, e, hok, hp, e2, e3⟩ := verify_inv e1
    rcases proof_sound hok ht ((PTree.Top.valsLe_iff ht).2 hv) hp with hb | ha
    · refine Or.inr ⟨t, ht, rfl, ?_⟩
      simpa only [verifyInputs, e] using hb
    · left
      injection h with h
      injection h with h1
      rw [← h1]
      subst e2 e3
      rw [ha, ← hexLine_eq]
      cases t.find k <;> rfl

/-- Insert a value of 256 bytes into a new database with one run of the tool and read it
with the next: do both exit with 0, and does the second print an empty value? -/
def losesLongValue : Bool :=
  match cliMain toyEnv 0 B32.zero (fun d => .ok (d, true)) Dir.fresh none (.insert (keyOf 1) (List.replicate 256 7)) with
  | .ok (d, e) => e == .good [] && (match cliMain toyEnv 0 B32.zero (fun d => .ok (d, true)) d none (.get (keyOf 1)) with
    | .ok (_, e) => e == .good (hexLine [])
    | _ => false)
  | _ => false

/-- C62 is false for values of 256 to 1023 bytes: `insert` exits with 0, and then `get`
prints only the first bytes (here none of 256) and exits with 0. -/
theorem C62_commands_false : ∃ (d d' : Dir) (k : B32) (v : Bytes), v.length = 256 ∧
    (∀ fuel, cliMain toyEnv fuel B32.zero (fun d => .ok (d, true)) Dir.fresh none (.insert k v) = .ok (d, .prints [])) ∧
    (∀ fuel, cliMain toyEnv fuel B32.zero (fun d => .ok (d, true)) d none (.get k) = .ok (d', .prints (hexText []))) := by
  have h : losesLongValue = true := by decide +kernel
  unfold losesLongValue at h
  split at h
  · next d e h1 =>
    rw [Bool.and_eq_true] at h
    obtain ⟨h2, h⟩ := h
    split at h
    · next d' e' h3 =>
      have h2 := eq_of_beq h2
      have h := eq_of_beq h
      subst h2 h
      exact ⟨d, d', keyOf 1, List.replicate 256 7, by rw [List.length_replicate], fun _ => h1, fun _ => h3⟩
    · cases h
  · cases h

end Urkel
