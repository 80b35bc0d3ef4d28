import Verif.Props.Damage
import Verif.Lemmas.Search
/-
C71: opening any directory, and looking for old roots in damaged files.
-/
namespace Urkel

section
variable {E : Env} {s : Sys}

/-- A directory that has been opened. -/
theorem snug_open {d d' : Dir} {rand : B32} {db : Db} (e : dbOpen E d rand = .ok (d', .ok db)) : Snug db.store := by
  unfold dbOpen at e
  obtain ⟨⟨d1, r⟩, e1, e⟩ := Res.bind_eq_ok.1 e
  cases r with
  | none => cases e
  | some st =>
    cases e
    unfold openStore at e1
    split at e1
    · cases e1
    · rename_i key _
      obtain ⟨⟨m, lm, files, index⟩, e2, e1⟩ := Res.bind_eq_ok.1 e1
      simp only at e1
      obtain ⟨⟨s1, r⟩, e3, e1⟩ := Res.bind_eq_ok.1 e1
      have hs := storeReadRoot_sameIo e3
      have hi : 1 ≤ index ∧ (files.length < index → files.length + 1 = index) := by
        rcases newest_or_none E key d.files with hn | ⟨i, j, prev, root, hn⟩
        · obtain ⟨lm', h⟩ := recover_none hn
          rw [h] at e2; cases e2
          exact ⟨Nat.le_refl _, fun _ => rfl⟩
        · rw [recover_slot hn] at e2
          cases e2
          obtain ⟨f, hf, _⟩ := hn
          have := (List.getElem?_eq_some_iff.1 hf).1
          refine ⟨by omega, fun h => ?_⟩
          unfold cutAt at h
          simp at h; omega
      generalize hfs : (if files.length < index then files ++ [[]] else files) = fs at *
      have hlen : index ≤ fs.length := by
        rw [← hfs]
        split
        · next h => have := hi.2 h; simp; omega
        · omega
      have h0 : Snug s1 := by
        refine Snug.of_same ?_ hs
        refine ⟨hi.1, hlen, fun f hf => ?_⟩
        dsimp only at hf ⊢
        rw [List.getD_eq_getElem?_getD, hf]; exact Nat.le_refl _
      cases r with
      | none => cases e1
      | some n => cases e1; exact ⟨h0.low, h0.high, h0.size⟩

/-- Reads stay inside the files, whatever they contain. -/
theorem Worn.snug (hw : Worn E s) : Snug s.db.store := by
  induction hw with
  | opened e => exact snug_open e
  | @rot s db hw hr ih =>
    obtain ⟨files, hl, rfl⟩ := hr
    have hlen : files.length = s.db.store.files.length := by have := congrArg List.length hl; simpa using this
    refine ⟨ih.low, by dsimp only; rw [hlen]; exact ih.high, fun f hf => ?_⟩
    dsimp only at hf ⊢
    have h1 : (files.map List.length)[s.db.store.index - 1]? = some f.length := by rw [List.getElem?_map, hf]; rfl
    rw [hl, List.getElem?_map] at h1
    cases hg : s.db.store.files[s.db.store.index - 1]? with
    | none => rw [hg] at h1; cases h1
    | some g =>
      rw [hg] at h1
      have hgl : g.length = f.length := by simpa using h1
      rw [← hgl]; exact ih.size g hg
  | faults fs hw ih => exact ⟨ih.low, ih.high, ih.size⟩
  | @call s s' op r hw e ih =>
    by_cases hop : ∃ rand, op = .reopen rand
    · obtain ⟨rand, rfl⟩ := hop
      simp only [step] at e
      obtain ⟨⟨d, x⟩, e1, e⟩ := Res.bind_eq_ok.1 e
      cases x with
      | ok db => cases e; exact snug_open e1
      | error x => cases e
    · exact step_rel (ioRel_snug E) (fun rand h => hop ⟨rand, h⟩) e ih

/-! ### Looking for a root -/

/-- The root is known without reading the files: it is the empty one or the current one, or the
process has come across it before. -/
def Known (st : Store) (h : B32) : Prop := h = B32.zero ∨ h = rootHash st ∨ ∃ p, (h, p) ∈ st.cache

theorem cacheLookup_none {c : List (B32 × Ptr)} {h : B32} : cacheLookup c h = none ↔ ¬ ∃ p, (h, p) ∈ c := by
  unfold cacheLookup
  rw [List.lookup_eq_none_iff]
  constructor
  · rintro hn ⟨p, hp⟩
    have := hn _ hp
    simp at this
  · intro hn x hx
    simp only [bne_iff_ne]
    rintro rfl
    exact hn ⟨x.2, hx⟩

/-- The four ends of a search in memory and files. -/
theorem readHistory_total {st : Store} (h : B32) :
    (Known st h ∧ ∃ n, readHistory E st h = .ok (st, some n)) ∨
    (¬ Known st h ∧ readHistory E st h = historyLoop E h (totalBytes st.files + 2) st) := by
  unfold readHistory
  by_cases h0 : h = B32.zero
  · rw [if_pos h0]; exact .inl ⟨.inl h0, _, rfl⟩
  rw [if_neg h0]
  by_cases h1 : h = rootNodeHash st.state.rootNode
  · rw [if_pos h1]; exact .inl ⟨.inr (.inl h1), _, rfl⟩
  rw [if_neg h1]
  cases hc : cacheLookup st.cache h with
  | some p =>
    refine .inl ⟨.inr (.inr ?_), _, rfl⟩
    by_contra hn
    rw [cacheLookup_none.2 hn] at hc; cases hc
  | none =>
    refine .inr ⟨?_, rfl⟩
    rintro (h' | h' | h')
    · exact h0 h'
    · exact h1 h'
    · exact cacheLookup_none.1 hc h'

theorem Hunt.root {st : Store} {h : B32} {p root : Ptr} (hu : Hunt E st h p (.found root)) (hk : ¬ Known st h) : root.index ≠ 0 := by
  generalize ho : Hunted.found root = o at hu
  induction hu with
  | first => cases ho
  | broken => cases ho
  | lost => cases ho
  | long => cases ho
  | found _ _ hs =>
    cases ho
    intro h0
    unfold seen at hs
    rw [if_pos h0] at hs
    injection hs with hs
    exact hk (.inl hs.symm)
  | next _ _ ih => exact ih ho

/-- C71, looking for a root. Whatever the data files contain, `urkel_tx_create` for a root that
is not known in memory: it runs for ever exactly if the commit records lead in a circle that
does not contain the root, aborts the process exactly if it comes to a commit record whose root
node has a path longer than a key, returns ENOTFOUND exactly if the records end, or one cannot be
read, before the root is found, and otherwise gives a transaction on the root. -/
theorem C71_create (hw : Worn E s) (id : Nat) {h : B32} (hk : ¬ Known s.db.store h) :
    (step E s (.create id (some h)) = .ub ↔ Endless E s.db.store h s.db.store.lastMeta.metaPtr) ∧
    (step E s (.create id (some h)) = .abort ↔ Hunt E s.db.store h s.db.store.lastMeta.metaPtr .dies) ∧
    ((∃ s', step E s (.create id (some h)) = .ok (s', .fail .ENOTFOUND)) ↔ Hunt E s.db.store h s.db.store.lastMeta.metaPtr .missing) ∧
    (∀ root, (∃ s', step E s (.create id (some h)) = .ok (s', .unit) ∧ s'.txs id = some ⟨some (.hash h root)⟩) ↔
      Hunt E s.db.store h s.db.store.lastMeta.metaPtr (.found root)) := by
  have hs := hw.snug
  have e : readHistory E s.db.store h = historyLoop E h (totalBytes s.db.store.files + 2) s.db.store := by
    rcases readHistory_total (E := E) (st := s.db.store) h with ⟨a, _⟩ | ⟨_, a⟩
    · exact absurd a hk
    · exact a
  have hstep : step E s (.create id (some h)) = (readHistory E s.db.store h >>= fun x => match x.2 with
      | some n => pure ((({ s with db := { s.db with store := x.1 } } : Sys).setTx id (some ⟨some n⟩)), .unit)
      | none => pure ({ s with db := { s.db with store := x.1 } }, .fail .ENOTFOUND) : Res (Sys × Ret)) := by
    simp only [step, txCreate]
    cases readHistory E s.db.store h with
    | ok x => obtain ⟨x, r⟩ := x; cases r <;> rfl
    | err _ => rfl
    | abort => rfl
    | ub => rfl
  rw [hstep, e]
  rcases historyLoop_total (E := E) (h := h) hs with ⟨a, s', b⟩ | ⟨a, b⟩ | ⟨root, s', a, b⟩ | ⟨a, b⟩
  · rw [b, Res.bind_ok]
    refine ⟨⟨(nomatch ·), fun x => absurd x (a.not_endless hs)⟩, ⟨(nomatch ·), fun x => (nomatch a.unique hs x)⟩, ⟨fun _ => a, fun _ => ⟨_, rfl⟩⟩, ?_⟩
    exact fun root => ⟨(fun ⟨_, h, _⟩ => (nomatch h)), fun x => (nomatch a.unique hs x)⟩
  · rw [b]
    refine ⟨⟨(nomatch ·), fun x => absurd x (a.not_endless hs)⟩, ⟨fun _ => a, fun _ => rfl⟩, ⟨(fun ⟨_, h⟩ => (nomatch h)), fun x => (nomatch a.unique hs x)⟩, ?_⟩
    exact fun root => ⟨(fun ⟨_, h, _⟩ => (nomatch h)), fun x => (nomatch a.unique hs x)⟩
  · rw [b, Res.bind_ok]
    refine ⟨⟨(nomatch ·), fun x => absurd x (a.not_endless hs)⟩, ⟨(nomatch ·), fun x => (nomatch a.unique hs x)⟩, ⟨(fun ⟨_, h⟩ => (nomatch h)), fun x => (nomatch a.unique hs x)⟩, ?_⟩
    intro root'
    constructor
    · rintro ⟨s'', h1, h2⟩
      cases h1
      simp only [Sys.setTx, if_true] at h2
      rw [rootNode, if_neg (a.root hk)] at h2
      injection h2 with h2; injection h2 with h2; injection h2 with h2; injection h2 with _ h2
      rw [← h2]; exact a
    · intro x
      have := a.unique hs x
      cases this
      exact ⟨_, rfl, by simp only [Sys.setTx, if_true]; rw [rootNode, if_neg (a.root hk)]⟩
  · rw [b]
    refine ⟨⟨fun _ => a, fun _ => rfl⟩, ⟨(nomatch ·), fun x => absurd a (x.not_endless hs)⟩, ⟨(fun ⟨_, h⟩ => (nomatch h)), fun x => absurd a (x.not_endless hs)⟩, ?_⟩
    exact fun root => ⟨(fun ⟨_, h, _⟩ => (nomatch h)), fun x => absurd a (x.not_endless hs)⟩

/-- C71: a root that is known in memory is found without reading the files. -/
theorem C71_create_known (_hw : Worn E s) (id : Nat) {h : B32} (hk : Known s.db.store h) :
    ∃ s' n, step E s (.create id (some h)) = .ok (s', .unit) ∧ s'.db = s.db ∧ s'.txs id = some ⟨some n⟩ := by
  rcases readHistory_total (E := E) (st := s.db.store) h with ⟨_, n, e⟩ | ⟨hn, _⟩
  · refine ⟨({ s with db := s.db } : Sys).setTx id (some ⟨some n⟩), n, ?_, rfl, by simp [Sys.setTx]⟩
    simp only [step, txCreate, e]
    rfl
  · exact absurd hk hn

/-! ### Opening -/

/-- The key file after an attempt to open the directory. -/
def kept (d : Dir) (rand : B32) : Option Bytes := some (d.keyFile.getD rand.bytes)

/-- C71, opening. Whatever a directory contains, `urkel_open` looks at the newest commit record
that carries the key of the directory and cuts the files off behind it. If there is none, the
files are removed and the database is empty. If the root node that the record names can be read,
the database opens with the hash of this node as its root; if not, `urkel_open` fails with
EBADOPEN; if the record of the node has a path longer than a key, the process aborts. With a key
file of less than 32 bytes it fails with EBADOPEN and changes nothing. -/
theorem C71_open (d : Dir) (rand : B32) :
    (d.key rand = none → dbOpen E d rand = .ok (d, .error .EBADOPEN)) ∧
    ∀ key, d.key rand = some key →
      (NoRecord E key d.files ∨ ∃ i j prev root, Newest E key d.files i j prev root) ∧
      (NoRecord E key d.files → ∃ db, dbOpen E d rand = .ok (⟨kept d rand, [[]]⟩, .ok db) ∧
        db.store.files = [[]] ∧ db.store.key = key ∧ dbRoot db = B32.zero) ∧
      ∀ i j prev root, Newest E key d.files i j prev root → match seen E (storeOn key (cutAt d.files i j)) root with
        | .root x => ∃ db, dbOpen E d rand = .ok (⟨kept d rand, cutAt d.files i j⟩, .ok db) ∧
            db.store.files = cutAt d.files i j ∧ db.store.key = key ∧ dbRoot db = x
        | .lost => dbOpen E d rand = .ok (⟨kept d rand, cutAt d.files i j⟩, .error .EBADOPEN)
        | .long => dbOpen E d rand = .abort := by
  refine ⟨fun h => ?_, fun key hkey => ⟨newest_or_none E key d.files, fun hn => ?_, fun i j prev root hn => ?_⟩⟩
  · unfold dbOpen openStore; rw [h]; rfl
  · obtain ⟨lm, e⟩ := recover_none hn
    refine ⟨⟨{ key := key, files := [[]], index := 1, curSize := 0, slab := { Slab.init with filePos := 0, fileIndex := 1 }, cache := [], state := { Meta.init with rootNode := .null }, lastMeta := lm, faults := [], io := [] }, B32.zero, false⟩, ?_, rfl, rfl, rfl⟩
    unfold dbOpen openStore kept
    simp only [hkey, e]
    cases d.keyFile <;> rfl
  · have e := recover_slot hn
    obtain ⟨f, hf, _, _, hp, _⟩ := hn
    have hlt := (List.getElem?_eq_some_iff.1 hf).1
    have hlen : (cutAt d.files i j).length = i + 1 := by unfold cutAt; simp; omega
    have hlast : (cutAt d.files i j).getD i [] = (cutAt d.files i j).getLastD [] := by
      unfold cutAt
      rw [List.getLastD_concat, List.getD_eq_getElem?_getD, List.getElem?_append_right (by simp), List.length_take, Nat.min_eq_left (by omega), Nat.sub_self]
      rfl
    generalize hc : cutAt d.files i j = fs at *
    generalize hst : ({ key := key, files := fs, index := i + 1, curSize := (fs.getD i []).length, slab := { Slab.init with filePos := (fs.getD i []).length, fileIndex := i + 1 }, cache := [], state := ⟨⟨i + 1, 38 * j, prev.size⟩, root, .null⟩, lastMeta := ⟨prev, root, .null⟩, faults := [], io := [] } : Store) = st
    have hsame : SameIo (storeOn key fs) st := by
      subst hst; exact ⟨rfl, rfl, hlen.symm, rfl, by unfold storeOn; rw [hlast]⟩
    have hopen : dbOpen E d rand = (storeReadRoot E st root >>= fun x => match x.2 with
        | none => pure (⟨kept d rand, x.1.files⟩, .error .EBADOPEN)
        | some n => pure (⟨kept d rand, x.1.files⟩, .ok ⟨{ x.1 with state := { x.1.state with rootNode := n } }, rootNodeHash n, false⟩) :
          Res (Dir × Except Err Db)) := by
      unfold dbOpen openStore
      have hnl : ¬ fs.length < i + 1 := by omega
      simp only [hkey, e, Res.bind_ok, if_neg hnl, Nat.add_sub_cancel]
      rw [hst]
      unfold kept
      cases storeReadRoot E st root with
      | ok x => obtain ⟨x, r⟩ := x; cases r <;> cases d.keyFile <;> rfl
      | err _ => rfl
      | abort => rfl
      | ub => rfl
    have hseen := storeReadRoot_seen E st (p := root) ⟨hp.2.2.2.1, hp.2.2.2.2.1, hp.2.2.2.2.2⟩
    rw [← seen_same hsame]
    rw [hopen]
    cases hx : seen E st root with
    | root x =>
      rw [hx] at hseen
      obtain ⟨s', e1, c, rfl⟩ := hseen
      simp only [e1, Res.bind_ok]
      subst hst
      refine ⟨_, rfl, rfl, rfl, ?_⟩
      unfold dbRoot rootNode
      by_cases h0 : root.index = 0
      · rw [if_pos h0]
        unfold seen at hx; rw [if_pos h0] at hx; injection hx
      · rw [if_neg h0]; rfl
    | lost =>
      rw [hx] at hseen
      simp only at hseen
      simp only [hseen, Res.bind_ok]
      subst hst; rfl
    | long =>
      rw [hx] at hseen
      simp only at hseen
      simp only [hseen]; rfl

end

/-! ### Directories that do not open -/

def shutDir (d : Bytes) : Dir := ⟨some rotDb.store.key.bytes, rotFiles d⟩

theorem shut_opens : dbOpen toyEnv (shutDir (List.replicate 192 0)) B32.zero = .ok (shutDir (List.replicate 192 0), .error .EBADOPEN) ∧
    dbOpen toyEnv (shutDir rotLong) B32.zero = .abort ∧
    (rotFiles (List.replicate 192 0)).map List.length = rotDb.store.files.map List.length := by decide +kernel

theorem wornDb_dir (d : Bytes) : (wornDb d).dir = shutDir d := by
  simp only [wornDb, shutDir, Db.dir]

/-- C71: with the root record damaged, `urkel_open` fails or aborts the process; both happen in
files that only differ in bytes from those of a healthy database. -/
theorem C71_open_fails : ∃ (s : Sys) (db1 db2 : Db), Reachable toyEnv s ∧ Rotten s.db db1 ∧ Rotten s.db db2 ∧
    dbOpen toyEnv db1.dir B32.zero = .ok (db1.dir, .error .EBADOPEN) ∧ dbOpen toyEnv db2.dir B32.zero = .abort := by
  obtain ⟨s, h1, h2, _⟩ := rot_reachable
  obtain ⟨e1, e2, l1⟩ := shut_opens
  have l2 := rot_lengths.1
  refine ⟨s, wornDb (List.replicate 192 0), wornDb rotLong, h1, ?_, ?_, ?_, ?_⟩
  · rw [h2]; exact ⟨_, l1, rfl⟩
  · rw [h2]; exact ⟨_, l2, rfl⟩
  · rw [wornDb_dir]; exact e1
  · rw [wornDb_dir]; exact e2

/-! ### A search that does not end -/

def hang1 : Res (Db × Tx × Except Err Unit) := txCommit toyEnv db0 ⟨some .null⟩
def hangDb1 : Db := match hang1 with | .ok (db, _, _) => db | _ => db0
def hang2 : Res (Db × Tx × Except Err Unit) := txCommit toyEnv hangDb1 ⟨some .null⟩
def hangDb2 : Db := match hang2 with | .ok (db, _, _) => db | _ => db0
def hang3 : Res (Db × Tx × Except Err Unit) := txCommit toyEnv hangDb2 ⟨some .null⟩
def hangDb3 : Db := match hang3 with | .ok (db, _, _) => db | _ => db0

theorem hang_commits : hang1 = .ok (hangDb1, ⟨some .null⟩, .ok ()) ∧ hang2 = .ok (hangDb2, ⟨some .null⟩, .ok ()) ∧
    hang3 = .ok (hangDb3, ⟨some .null⟩, .ok ()) := by decide +kernel

/-- The second of three commit records is replaced by a copy of the third. -/
def twice (f : Bytes) : Bytes := f.take 38 ++ slot f 2 ++ slot f 2

/-- What is in the directory after that. -/
def hangDir : Dir := ⟨some hangDb3.store.key.bytes, hangDb3.store.files.map twice⟩

def hangOpen : Res (Dir × Except Err Db) := dbOpen toyEnv hangDir B32.zero
def hangDb : Db := match hangOpen with | .ok (_, .ok db) => db | _ => db0

theorem hang_open : hangOpen = .ok (hangDir, .ok hangDb) ∧ hangDb3.store.files.map List.length = [114] ∧
    hangDir.files.map List.length = [114] ∧ txCreate toyEnv hangDb (some (keyOf 1)) = .ub := by
  decide +kernel

theorem hang_room {db : Db} {n : Nat} (h : db.store.files.map List.length = [n]) (hn : n ≤ 114) : HasRoom toyEnv db.store.files (408 * 0 + 76) := by
  generalize db.store.files = fs at h
  cases fs with
  | nil => cases h
  | cons f fs =>
    cases fs with
    | cons _ _ => simp at h
    | nil =>
      have : f.length = n := by simpa using h
      unfold HasRoom
      simp [this, toyEnv, realCfg]
      omega

theorem hang_reachable : ∃ s : Sys, Reachable toyEnv s ∧ s.db = hangDb3 := by
  have r1 : Reachable toyEnv sys1 := (Logged.other (op := .create 0 none) (.start sys0_started) trivial sys1_step
    (Or.inr fun c hc => hc.elim) : Logged toyEnv [] sys1).reachable
  obtain ⟨e1, e2, e3⟩ := hang_commits
  have go : ∀ {s : Sys} {db db' : Db} {n : Nat}, Reachable toyEnv s → s.db = db → s.txs 0 = some ⟨some .null⟩ →
      txCommit toyEnv db ⟨some .null⟩ = .ok (db', ⟨some .null⟩, .ok ()) → db.store.files.map List.length = [n] → n ≤ 114 →
      ∃ s', Reachable toyEnv s' ∧ s'.db = db' ∧ s'.txs 0 = some ⟨some .null⟩ := by
    intro s db db' n h hd ht e hl hn
    refine reach_step_commit h ht hd ⟨fun k v hk => ?_, [], fun k hk => ?_, hang_room hl hn⟩ e
    · cases hk
    · cases hk
  have h0 : db0.store.files.map List.length = [0] ∧ hangDb1.store.files.map List.length = [38] ∧ hangDb2.store.files.map List.length = [76] := by
    decide +kernel
  obtain ⟨s2, r2, d2, t2⟩ := go r1 rfl rfl e1 h0.1 (by omega)
  obtain ⟨s3, r3, d3, t3⟩ := go r2 d2 t2 e2 h0.2.1 (by omega)
  obtain ⟨s4, r4, d4, t4⟩ := go r3 d3 t3 e3 h0.2.2 (by omega)
  exact ⟨s4, r4, d4⟩

/-- C71: three commits of an empty tree, the second commit record overwritten with the third one
(a misdirected write), and the database opened again: `urkel_tx_create` for a root that never
existed does not return. -/
theorem C71_create_hangs : ∃ (s0 : Sys) (f : Bytes) (d : Dir) (db : Db), Reachable toyEnv s0 ∧ s0.db.dir.files = [f] ∧ f.length = 114 ∧
    d = ⟨s0.db.dir.keyFile, [f.take 38 ++ slot f 2 ++ slot f 2]⟩ ∧
    dbOpen toyEnv d B32.zero = .ok (d, .ok db) ∧ Worn toyEnv ⟨db, fun _ => none⟩ ∧
    step toyEnv ⟨db, fun _ => none⟩ (.create 0 (some (keyOf 1))) = .ub ∧
    Endless toyEnv db.store (keyOf 1) db.store.lastMeta.metaPtr := by
  obtain ⟨s, hr, hdb⟩ := hang_reachable
  obtain ⟨e1, l1, l2, e2⟩ := hang_open
  have e3 : dbOpen toyEnv hangDir B32.zero = .ok (hangDir, .ok hangDb) := e1
  have hd : hangDir = ⟨some hangDb3.store.key.bytes, hangDb3.store.files.map twice⟩ := rfl
  have hd3 : s.db.dir.keyFile = some hangDb3.store.key.bytes := by rw [hdb]; rfl
  clear e1
  have hw : Worn toyEnv ⟨hangDb, fun _ => none⟩ := .opened e3
  have hst : step toyEnv ⟨hangDb, fun _ => none⟩ (.create 0 (some (keyOf 1))) = .ub := by
    simp only [step]; rw [e2]; rfl
  have hkn : ¬ Known hangDb.store (keyOf 1) := by
    have : keyOf 1 ≠ B32.zero ∧ keyOf 1 ≠ rootHash hangDb.store ∧ hangDb.store.cache = [] := by decide +kernel
    rintro (h | h | ⟨p, h⟩)
    · exact this.1 h
    · exact this.2.1 h
    · rw [this.2.2] at h; cases h
  obtain ⟨f, hf, hl⟩ : ∃ f, hangDb3.store.files = [f] ∧ f.length = 114 := by
    generalize hangDb3.store.files = fs at l1
    cases fs with
    | nil => cases l1
    | cons f fs =>
      cases fs with
      | cons _ _ => simp at l1
      | nil => exact ⟨f, rfl, by simpa using l1⟩
  have he := ((C71_create hw 0 hkn).1).1 hst
  clear e2 hkn
  generalize hangDb = db at e3 hw hst he
  generalize hangDir = d at e3 hd
  refine ⟨s, f, d, db, hr, ?_, hl, ?_, e3, hw, hst, he⟩
  · rw [hdb]; exact hf
  · rw [hd, hd3, hf]; rfl

end Urkel
