import Verif.Lemmas.Power
import Verif.Lemmas.Concrete
/-
C56: power loss. The operating system may persist unsynced bytes in any order or not at
all (Spec/Power.lean). The key file is taken to be on stable storage.
-/
namespace Urkel

theorem Session.keeps {E : Env} {s s' : Sys} {ops : List Op} (h : Session E s ops s') :
    Keeps s.db.store s'.db.store := by
  induction h with
  | nil s => exact Keeps.same (SameIo.refl _)
  | cons hop e _ ih => exact (step_rel (ioRel_keeps E) hop e).trans ih

theorem PowerLoss.synced {disk : Disk} {files : List Bytes} (h : PowerLoss disk files) {j : Nat} {f : DiskFile}
    (hf : disk[j]? = some f) (hs : f.Synced) (hne : f.data ≠ []) : files[j]? = some f.data := by
  have hpos : 0 < f.durable := by
    rw [hs]; exact List.length_pos_iff.2 hne
  rcases Nat.lt_or_ge j files.length with hlt | hge
  · have hb : files[j]? = some files[j] := List.getElem?_eq_getElem hlt
    have hv := h.there j f _ hf hb
    rw [hb]
    congr 1
    have hlen : files[j].length = f.data.length := by
      have := hv.most; have h2 := hv.least; rw [hs] at h2; omega
    apply List.ext_getElem?
    intro i
    rcases Nat.lt_or_ge i f.data.length with hi | hi
    · exact hv.synced i (by rw [hs]; exact hi)
    · rw [List.getElem?_eq_none (by omega), List.getElem?_eq_none hi]
  · have hm : f ∈ disk.drop files.length := by
      refine List.mem_iff_getElem?.2 ⟨j - files.length, ?_⟩
      rw [List.getElem?_drop, show files.length + (j - files.length) = j by omega]; exact hf
    have := h.missing f hm
    omega

/-- C56, in every build: take any moment of any sequence of calls on an opened database,
also in the middle of a call, and whatever the operating system does. If a byte has been
written to a file by then, all earlier files survive a power loss unharmed. -/
theorem C56_order {E : Env} {s s' : Sys} {ops : List Op} (h : Session E s ops s') {disk : Disk}
    (hd : Holds disk s.db.store) :
    ∃ evs, s'.db.store.io = evs ++ s.db.store.io ∧ Holds (disk.replay evs) s'.db.store ∧
      ∀ a e, evs = a ++ e → ∀ files, PowerLoss (disk.replay e) files →
        ∀ (j k : Nat) (f g : DiskFile), j < k → (disk.replay e)[j]? = some f → (disk.replay e)[k]? = some g → g.data ≠ [] →
          f.data ≠ [] → files[j]? = some f.data := by
  obtain ⟨evs, h1, h2⟩ := h.keeps
  obtain ⟨h3, h4⟩ := h2 disk hd
  refine ⟨evs, h1, h3, ?_⟩
  intro a e he files hp j k f g hjk hf hg hne hfne
  exact hp.synced hf (h4 a e he j k f g hjk hf hg hne) hfne

/-- `Holds` is what an opened database starts with, if the files before the newest one
had been synced. -/
theorem C56_opened {E : Env} {d d' : Dir} {rand : B32} {db : Db} (e : dbOpen E d rand = .ok (d', .ok db)) {disk : Disk}
    (hd : disk.map DiskFile.data = db.store.files) (hs : ∀ f ∈ disk.dropLast, f.Synced) : Holds disk db.store := by
  have key : 1 ≤ db.store.index ∧ db.store.files.length = db.store.index := by
    unfold dbOpen at e
    obtain ⟨⟨d1, r⟩, e1, e⟩ := Res.bind_eq_ok.1 e
    cases r with
    | none => cases e
    | some s =>
      cases e
      cases hk : d.key rand with
      | none => unfold openStore at e1; rw [hk] at e1; cases e1
      | some key =>
        rw [openStore_def E d rand hk] at e1
        obtain ⟨⟨st, lm, fs, idx⟩, e2, e1⟩ := Res.bind_eq_ok.1 e1
        simp only at e1
        obtain ⟨⟨s3, r3⟩, e3, e1⟩ := Res.bind_eq_ok.1 e1
        obtain ⟨a, b, c, _⟩ := storeReadRoot_sameIo e3
        simp only at a c
        cases r3 with
        | none => cases e1
        | some n =>
          cases e1
          rw [a, c]
          rcases recover_again (Nat.le_refl _) e2 with ⟨_, rfl, rfl⟩ | ⟨h1, h2, _⟩
          · exact ⟨by omega, rfl⟩
          · refine ⟨h2, ?_⟩
            rw [if_neg (by omega)]; exact h1
  have hlen : disk.length = db.store.index := by rw [← key.2, ← hd, List.length_map]
  refine ⟨hd, key.1, by omega, ?_, ?_⟩
  · intro j f hj hlt
    refine hs f (List.mem_iff_getElem?.2 ⟨j, ?_⟩)
    rw [List.getElem?_dropLast, if_pos (by omega)]; exact hj
  · intro j f hj hge
    have := (List.getElem?_eq_some_iff.1 hj).1
    omega

instance : DecidableEq (Except Err Unit)
  | .ok _, .ok _ => isTrue rfl
  | .error a, .error b => if h : a = b then isTrue (h ▸ rfl) else isFalse (fun e => h (Except.error.inj e))
  | .ok _, .error _ => isFalse (fun e => nomatch e)
  | .error _, .ok _ => isFalse (fun e => nomatch e)

/-- A session with two commits, and a disk under its start. -/
example : ∃ (s s' : Sys) (ops : List Op), Started toyEnv s ∧ Session toyEnv s ops s' ∧ Holds [⟨[], 0⟩] s.db.store ∧
    ops = [.insert1 (keyOf 1) [7]] := by
  have hc : ∃ db1, urkelInsert toyEnv db0 (keyOf 1) [7] = .ok (db1, .ok ()) := by
    refine ⟨(match urkelInsert toyEnv db0 (keyOf 1) [7] with | .ok (d, _) => d | _ => db0), ?_⟩
    decide +kernel
  obtain ⟨db1, e⟩ := hc
  refine ⟨sys0, ⟨db1, fun _ => none⟩, _, sys0_started, .cons (r := .unit) (by intro _ h; cases h) ?_ (.nil _), ?_, rfl⟩
  · simp only [step, show sys0.db = db0 from rfl, e, Res.bind_ok]; rfl
  · exact C56_opened open_db0 rfl (by simp)

/-! ### URKEL_FSYNC -/

theorem recover_getD {E : Env} {key : B32} {a b : List Bytes} {n : Nat} (ha : n ≤ a.length) (m : Meta) :
    recoverState E key (a ++ b) n m = recoverState E key a n m := by
  induction n generalizing m with
  | zero => rfl
  | succ n ih =>
    unfold recoverState
    have : (a ++ b).getD n [] = a.getD n [] := by
      rw [List.getD_eq_getElem?_getD, List.getD_eq_getElem?_getD, List.getElem?_append_left (by omega)]
    rw [this, List.take_append_of_le_length (by omega)]
    dsimp only
    refine congrArg (Res.bind _) (funext fun x => ?_)
    obtain ⟨r, m⟩ := x
    cases r
    · exact ih (by omega) m
    · rfl

/-- Empty files at the end make no difference to recovery. -/
theorem recover_empties {E : Env} {key : B32} {a b : List Bytes} (hb : ∀ f ∈ b, f = []) (m : Meta) :
    recoverState E key (a ++ b) (a ++ b).length m = recoverState E key a a.length m := by
  rcases List.eq_nil_or_concat b with rfl | ⟨i, l, e⟩
  · simp
  · rw [List.concat_eq_append] at e
    subst e
    have hl : l = [] := hb l (by simp)
    cases hl
    rw [← List.append_assoc, List.length_append, List.length_singleton]
    have hx : (a ++ i ++ [([] : Bytes)]).getD (a ++ i).length [] = [] := by
      rw [List.getD_eq_getElem?_getD, List.getElem?_append_right (Nat.le_refl _)]; simp
    have hy : recoverState E key (a ++ i ++ [([] : Bytes)]) ((a ++ i).length + 1) m =
        recoverState E key (a ++ i ++ [([] : Bytes)]) (a ++ i).length m := by
      rw [recoverState, hx]; rfl
    rw [hy]
    rw [recover_getD (Nat.le_refl _)]
    exact recover_empties (fun f hf => hb f (by simp [hf])) m
termination_by b.length
decreasing_by subst_vars; simp

theorem open_empties {E : Env} {a b : List Bytes} (hb : ∀ f ∈ b, f = []) (key rand : B32) :
    dbOpen E ⟨some key.bytes, a ++ b⟩ rand = dbOpen E ⟨some key.bytes, a⟩ rand := by
  have hk : ∀ x, Dir.key ⟨some key.bytes, x⟩ rand = some key := by
    intro x
    unfold Dir.key
    have := key.len
    simp only
    rw [dif_pos (by omega)]
    congr 1
    exact B32.ext (List.take_of_length_le (by omega))
  unfold dbOpen
  rw [openStore_def E _ rand (hk _), openStore_def E _ rand (hk _)]
  simp only [recover_empties hb]

/-- Every byte of a synced disk survives. -/
theorem PowerLoss.all {disk : Disk} {files : List Bytes} (h : PowerLoss disk files) (hs : ∀ f ∈ disk, f.Synced) :
    ∃ rest, disk.map DiskFile.data = files ++ rest ∧ ∀ f ∈ rest, f = [] := by
  refine ⟨(disk.map DiskFile.data).drop files.length, ?_, ?_⟩
  · rw [← List.take_append_drop files.length (disk.map DiskFile.data)]
    rw [List.drop_append_of_le_length (by simp only [List.length_take, List.length_map]; have := h.most; omega)]
    congr 1
    · apply List.ext_getElem?
      intro j
      rw [List.getElem?_take]
      split
      · rename_i hlt
        have hd : disk[j]? = some (disk[j]'(by have := h.most; omega)) := List.getElem?_eq_getElem _
        rw [List.getElem?_map, hd]
        have hsy := hs _ (List.mem_of_getElem? hd)
        by_cases hne : (disk[j]'(by have := h.most; omega)).data = []
        · have hb : files[j]? = some files[j] := List.getElem?_eq_getElem hlt
          have hv := h.there j _ _ hd hb
          rw [hb]
          have := hv.most
          rw [hne] at this
          simp only [List.length_nil, Nat.le_zero, List.length_eq_zero_iff] at this
          simp only [Option.map_some, this, hne]
        · rw [h.synced hd hsy hne]; rfl
      · rename_i hge
        rw [List.getElem?_eq_none (by omega)]
    · simp
  · intro f hf
    rw [← List.map_drop] at hf
    obtain ⟨g, hg, rfl⟩ := List.mem_map.1 hf
    have h0 := h.missing g hg
    have := hs g (List.mem_of_mem_drop hg)
    rw [DiskFile.Synced, h0] at this
    exact List.length_eq_zero_iff.1 this.symm

theorem step_all {E : Env} (hf : E.cfg.fsync = true) {s s' : Sys} {op : Op} (hw : op.Writes)
    (e : step E s op = .ok (s', .unit)) : KeepsAll s.db.store s'.db.store := by
  cases op with
  | commit id =>
    simp only [step] at e
    obtain ⟨_, _, e⟩ := Res.bind_eq_ok.1 e
    obtain ⟨⟨_, _, r⟩, e1, e⟩ := Res.bind_eq_ok.1 e
    cases r with
    | error x => cases e
    | ok _ => cases e; exact txCommit_all hf e1
  | insert1 k v =>
    simp only [step] at e
    obtain ⟨⟨db, x⟩, e1, e⟩ := Res.bind_eq_ok.1 e
    cases x with
    | error x => cases e
    | ok _ =>
      cases e
      unfold urkelInsert at e1
      obtain ⟨⟨db1, y⟩, e2, e1⟩ := Res.bind_eq_ok.1 e1
      have h2 := txCreate_sameIo e2
      cases y with
      | error y => cases e1
      | ok tx =>
        simp only at e1
        obtain ⟨⟨tx1, z⟩, _, e1⟩ := Res.bind_eq_ok.1 e1
        cases z with
        | error z =>
          simp only at e1
          obtain ⟨_, _, e1⟩ := Res.bind_eq_ok.1 e1
          cases e1
        | ok z =>
          simp only at e1
          obtain ⟨⟨_, _, _⟩, e3, e1⟩ := Res.bind_eq_ok.1 e1
          obtain ⟨_, _, e1⟩ := Res.bind_eq_ok.1 e1
          cases e1; exact (Keeps.same h2).all (txCommit_all hf e3)
  | remove1 k =>
    simp only [step] at e
    obtain ⟨⟨db, x⟩, e1, e⟩ := Res.bind_eq_ok.1 e
    cases x with
    | error x => cases e
    | ok _ =>
      cases e
      unfold urkelRemove at e1
      obtain ⟨⟨db1, y⟩, e2, e1⟩ := Res.bind_eq_ok.1 e1
      have h2 := txCreate_sameIo e2
      cases y with
      | error y => cases e1
      | ok tx =>
        simp only at e1
        obtain ⟨⟨tx1, z⟩, _, e1⟩ := Res.bind_eq_ok.1 e1
        cases z with
        | error z =>
          simp only at e1
          obtain ⟨_, _, e1⟩ := Res.bind_eq_ok.1 e1
          cases e1
        | ok z =>
          simp only at e1
          obtain ⟨⟨_, _, _⟩, e3, e1⟩ := Res.bind_eq_ok.1 e1
          obtain ⟨_, _, e1⟩ := Res.bind_eq_ok.1 e1
          cases e1; exact (Keeps.same h2).all (txCommit_all hf e3)
  | _ => exact hw.elim

/-- C56, as far as it is true, in a build with URKEL_FSYNC: once a committing call has
returned success, whatever happened before it, a power loss changes nothing that
`urkel_open` does: it returns the same database as without the power loss. Missing: a
power loss during a later commit (`C56_false`), and builds without URKEL_FSYNC, which
is what the build files produce (`C56_lost`). -/
theorem C56_synced_partial {E : Env} (hf : E.cfg.fsync = true) {s0 s s' : Sys} {ops : List Op} {op : Op} {disk : Disk}
    (hd : Holds disk s0.db.store) (h : Session E s0 ops s) (hw : op.Writes) (e : step E s op = .ok (s', .unit)) :
    ∃ evs, s'.db.store.io = evs ++ s0.db.store.io ∧
      ∀ files, PowerLoss (disk.replay evs) files → ∀ key rand : B32,
        dbOpen E ⟨some key.bytes, files⟩ rand = dbOpen E ⟨some key.bytes, s'.db.store.files⟩ rand := by
  have hall := h.keeps.all (step_all hf hw e)
  have hop : ∀ rand, op ≠ .reopen rand := by rintro rand rfl; exact hw
  have hk := h.keeps.trans (step_rel (ioRel_keeps E) hop e)
  obtain ⟨evs, h1, h2⟩ := hall
  obtain ⟨evs', h1', h2'⟩ := hk
  have : evs' = evs := by rw [h1] at h1'; exact (List.append_cancel_right h1').symm
  subst this
  refine ⟨evs', h1, fun files hp key rand => ?_⟩
  obtain ⟨rest, e1, e2⟩ := hp.all (h2 disk hd)
  rw [(h2' disk hd).1.data] at e1
  rw [e1, open_empties e2]

/-- C56 in terms of contents, with URKEL_FSYNC: once a committing call has returned
success, after a power loss `urkel_open` succeeds and shows that commit. Missing: as in
`C56_synced_partial`, and misaligned databases (see `C23_reopen_partial`). -/
theorem C56_kept_partial {E : Env} (hE : EnvOk E) (hf : E.cfg.fsync = true) {s0 s s' : Sys} {ops : List Op} {op : Op}
    {disk : Disk} (hd : Holds disk s0.db.store) (h : Session E s0 ops s) (hw : op.Writes)
    (e : step E s op = .ok (s', .unit)) {log : List (B32 × Contents)} (hl : Logged E log s') (hal : Aligned s'.db) :
    ∃ evs, s'.db.store.io = evs ++ s0.db.store.io ∧
      ∀ files, PowerLoss (disk.replay evs) files → ∀ rand : B32,
        ∃ db' tx, dbOpen E ⟨some s'.db.store.key.bytes, files⟩ rand = .ok (s'.db.dir, .ok db') ∧
          dbRoot db' = (log.map Prod.fst).headD B32.zero ∧ txCreate E db' none = .ok (db', .ok tx) ∧
          Shows db' tx ((log.map Prod.snd).headD Contents.empty) := by
  obtain ⟨evs, h1, h2⟩ := C56_synced_partial hf hd h hw e
  refine ⟨evs, h1, fun files hp rand => ?_⟩
  obtain ⟨db', tx, e1, e2, e3, e4, _⟩ := C23_reopen_partial hE hl hal rand
  exact ⟨db', tx, (h2 files hp _ rand).trans e1, e2, e3, e4⟩

/-! ### What a power loss can destroy -/

/-- `toyEnv` in a build with (`true`) or without (`false`) URKEL_FSYNC. -/
def fsyncEnv (b : Bool) : Env := { toyEnv with cfg := { realCfg with fsync := b } }

def pdb1 (b : Bool) : Db := match urkelInsert (fsyncEnv b) db0 (keyOf 1) [7] with | .ok (d, _) => d | _ => db0
def pdb2 (b : Bool) : Db := match urkelInsert (fsyncEnv b) (pdb1 b) (keyOf 2) [8] with | .ok (d, _) => d | _ => db0

theorem pdb1_eq : ∀ b, urkelInsert (fsyncEnv b) db0 (keyOf 1) [7] = .ok (pdb1 b, .ok ()) := by decide +kernel
theorem pdb2_eq : ∀ b, urkelInsert (fsyncEnv b) (pdb1 b) (keyOf 2) [8] = .ok (pdb2 b, .ok ()) := by decide +kernel
theorem open_fsync : ∀ b, dbOpen (fsyncEnv b) Dir.fresh B32.zero = .ok (⟨some B32.zero.bytes, [[]]⟩, .ok db0) := by decide +kernel

/-- The first commit, zeros, and the last 38 bytes of the second. -/
def torn (b : Bool) : Bytes :=
  let f1 := (pdb1 b).store.files.getD 0 []
  let f2 := (pdb2 b).store.files.getD 0 []
  f1 ++ List.replicate (f2.length - f1.length - 38) 0 ++ f2.drop (f2.length - 38)

theorem survives_of {f : DiskFile} {x : Bytes} (h1 : f.durable ≤ x.length) (h2 : x.length ≤ f.data.length)
    (h3 : ∀ i < f.durable, x[i]? = f.data[i]?) (h4 : ∀ i < x.length, x[i]? = f.data[i]? ∨ x[i]? = some 0) : Survives f x :=
  ⟨h1, h2, h3, h4⟩

theorem powerLoss_one {f : DiskFile} {x : Bytes} (h : Survives f x) : PowerLoss [f] [x] := by
  refine ⟨by simp, by simp, ?_⟩
  intro j f' b' hf hb
  cases j with
  | zero => cases hf; cases hb; exact h
  | succ j => cases hf

/-- The claim is false for a power loss during a commit, with or without URKEL_FSYNC: the
nodes of a commit and its commit record are written without a sync between them, so
the record can reach the disk without the nodes. Here a new database has one commit,
whose call returned success; during the next one the power fails; after that `urkel_open`
fails, so the first commit is gone too. -/
theorem C56_false (b : Bool) : ∃ (s0 s1 s2 : Sys) (a e : List IoEv) (files : List Bytes) (d : Dir),
    Started (fsyncEnv b) s0 ∧ Holds [⟨[], 0⟩] s0.db.store ∧
    step (fsyncEnv b) s0 (.insert1 (keyOf 1) [7]) = .ok (s1, .unit) ∧
    step (fsyncEnv b) s1 (.insert1 (keyOf 2) [8]) = .ok (s2, .unit) ∧
    s2.db.store.io = a ++ (e ++ s1.db.store.io) ∧
    PowerLoss (Disk.replay [⟨[], 0⟩] (e ++ s1.db.store.io)) files ∧
    dbOpen (fsyncEnv b) ⟨some s2.db.store.key.bytes, files⟩ B32.zero = .ok (d, .error .EBADOPEN) := by
  have hio : ∀ b, (pdb2 b).store.io = (pdb2 b).store.io.take (if b then 1 else 0) ++
      (((pdb2 b).store.io.drop (if b then 1 else 0)).take 1 ++ (pdb1 b).store.io) := by decide +kernel
  have hdisk : ∀ b, ∃ f, Disk.replay [⟨[], 0⟩] (((pdb2 b).store.io.drop (if b then 1 else 0)).take 1 ++ (pdb1 b).store.io) = [f] ∧
      f = ⟨(pdb2 b).store.files.getD 0 [], if b then ((pdb1 b).store.files.getD 0 []).length else 0⟩ := by
    intro b
    refine ⟨_, ?_, rfl⟩
    revert b; decide +kernel
  have hopen : ∀ b, dbOpen (fsyncEnv b) ⟨some (pdb2 b).store.key.bytes, [torn b]⟩ B32.zero =
      .ok (⟨some (pdb2 b).store.key.bytes, [torn b]⟩, .error .EBADOPEN) := by decide +kernel
  obtain ⟨f, hf1, hf2⟩ := hdisk b
  refine ⟨⟨db0, fun _ => none⟩, ⟨pdb1 b, fun _ => none⟩, ⟨pdb2 b, fun _ => none⟩, _, _, [torn b], _,
    ⟨B32.zero, _, _, open_fsync b, rfl⟩, C56_opened (open_fsync b) rfl (by simp), ?_, ?_, hio b, ?_, hopen b⟩
  · simp only [step, pdb1_eq, Res.bind_ok]; rfl
  · simp only [step, pdb2_eq, Res.bind_ok]; rfl
  · rw [hf1, hf2]
    refine powerLoss_one (survives_of ?_ ?_ ?_ ?_)
    · clear hf1 hf2; revert b; decide +kernel
    · clear hf1 hf2; revert b; decide +kernel
    · clear hf1 hf2; revert b; decide +kernel
    · clear hf1 hf2; revert b; decide +kernel

theorem lost_of {E : Env} {d0 d : Dir} {dbA dbB dbC : Db} {files : List Bytes} {k : B32} {v : Bytes}
    (h0 : dbOpen E Dir.fresh B32.zero = .ok (d0, .ok dbA)) (hh : Holds [⟨[], 0⟩] dbA.store)
    (h1 : urkelInsert E dbA k v = .ok (dbB, .ok ())) (h2 : dbRoot dbB ≠ B32.zero)
    (h3 : PowerLoss (Disk.replay [⟨[], 0⟩] dbB.store.io) files)
    (h4 : dbOpen E ⟨some dbB.store.key.bytes, files⟩ B32.zero = .ok (d, .ok dbC)) (h5 : dbRoot dbC = B32.zero) :
    ∃ (s0 s1 : Sys) (files : List Bytes) (d : Dir) (db : Db),
    Started E s0 ∧ Holds [⟨[], 0⟩] s0.db.store ∧
    step E s0 (.insert1 k v) = .ok (s1, .unit) ∧ dbRoot s1.db ≠ B32.zero ∧
    PowerLoss (Disk.replay [⟨[], 0⟩] s1.db.store.io) files ∧
    dbOpen E ⟨some s1.db.store.key.bytes, files⟩ B32.zero = .ok (d, .ok db) ∧ dbRoot db = B32.zero := by
  refine ⟨⟨dbA, fun _ => none⟩, ⟨dbB, fun _ => none⟩, files, d, dbC, ⟨B32.zero, _, _, h0, rfl⟩, hh, ?_, h2, h3, h4, h5⟩
  simp only [step, h1, Res.bind_ok]; rfl

/-- Without URKEL_FSYNC a commit whose call returned success can be lost: after a power
loss `urkel_open` returns an empty database. -/
theorem C56_lost : ∃ (s0 s1 : Sys) (files : List Bytes) (d : Dir) (db : Db),
    Started (fsyncEnv false) s0 ∧ Holds [⟨[], 0⟩] s0.db.store ∧
    step (fsyncEnv false) s0 (.insert1 (keyOf 1) [7]) = .ok (s1, .unit) ∧ dbRoot s1.db ≠ B32.zero ∧
    PowerLoss (Disk.replay [⟨[], 0⟩] s1.db.store.io) files ∧
    dbOpen (fsyncEnv false) ⟨some s1.db.store.key.bytes, files⟩ B32.zero = .ok (d, .ok db) ∧ dbRoot db = B32.zero := by
  have h1 : dbRoot (pdb1 false) ≠ B32.zero := by decide +kernel
  have h2 : dbOpen (fsyncEnv false) ⟨some (pdb1 false).store.key.bytes, [[]]⟩ B32.zero =
    .ok (⟨some B32.zero.bytes, [[]]⟩, .ok db0) := by decide +kernel
  have h3 : Disk.replay [⟨[], 0⟩] (pdb1 false).store.io = [⟨(pdb1 false).store.files.getD 0 [], 0⟩] := by decide +kernel
  refine lost_of (open_fsync false) (C56_opened (open_fsync false) rfl (by simp)) (pdb1_eq false) h1 ?_ h2 rfl
  rw [h3]
  exact powerLoss_one (survives_of (Nat.le_refl _) (Nat.zero_le _) (by simp) (by simp))

/-- The commits of `C56_false` in a build with URKEL_FSYNC meet `C56_synced_partial`. -/
example : ∃ (s0 s s' : Sys) (ops : List Op) (op : Op) (disk : Disk), (fsyncEnv true).cfg.fsync = true ∧
    Holds disk s0.db.store ∧ Session (fsyncEnv true) s0 ops s ∧ op.Writes ∧ step (fsyncEnv true) s op = .ok (s', .unit) ∧
    ops ≠ [] := by
  obtain ⟨s0, s1, s2, _, _, _, _, _, hd, e1, e2, _⟩ := C56_false true
  refine ⟨s0, s1, s2, _, _, _, rfl, hd, .cons ?_ e1 (.nil _), ?_, e2, by simp⟩
  · intro _ h; cases h
  · trivial

/-- A session that ends with a commit whose state meets `C56_kept_partial`. -/
example : ∃ (s0 s s' : Sys) (ops : List Op) (log : List (B32 × Contents)), Holds [⟨[], 0⟩] s0.db.store ∧
    Session (fsyncEnv true) s0 ops s ∧ step (fsyncEnv true) s (.commit 0) = .ok (s', .unit) ∧
    Logged (fsyncEnv true) log s' ∧ Aligned s'.db ∧ log.length = 1 := by
  have hE : EnvOk (fsyncEnv true) := ⟨⟨by decide, by decide, by decide⟩, toyEnv_ok.mac⟩
  obtain ⟨s0, h0, hk0, hf⟩ := started_exists (fsyncEnv true) B32.zero
  have hrv : s0.db.revert = false := (Exec.start h0).revert (by simp [NoInject])
  obtain ⟨s, e, g⟩ := good_create hE (.start h0) hrv (by rw [hf]; rfl) (l := []) (by simp) rfl
  rw [hf] at g
  obtain ⟨s1, e1, g1⟩ := good_insert hE g (keyOf 1) [7] (by decide)
  obtain ⟨s2, e2, g2, r2⟩ := good_commit hE ⟨rfl, rfl⟩ g1 (by decide)
  obtain ⟨rand, d, db, ho, rfl⟩ := id h0
  refine ⟨_, s1, s2, _, _, C56_opened ho ?_ (by simp), .cons ?_ e (.cons ?_ e1 (.nil _)), e2, g2.logged, Or.inl g2.one, rfl⟩
  · exact hf.symm
  · intro _ h; cases h
  · intro _ h; cases h

end Urkel
