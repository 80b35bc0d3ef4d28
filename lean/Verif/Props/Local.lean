import Verif.Lemmas.Local
import Verif.Lemmas.Concrete
/-
C78: calls that concern one key depend on a bounded part of the data files.
-/
namespace Urkel

theorem rd_sameAt {s : Store} {files' : List Bytes} {p : Ptr} (h : SameAt s.files files' p) :
    ({ s with files := files' } : Store).rd p = s.rd p := by
  unfold Store.rd storeRead
  dsimp only
  split
  · rfl
  · rcases h with ⟨h1, h2⟩ | ⟨f, f', h1, h2, h3, h4⟩
    · rw [h1, h2]
    · rw [h1, h2]
      dsimp only
      split
      · rfl
      · rw [h3]
        by_cases c : p.index = s.index
        · rw [if_pos c, if_pos c]
        · rw [if_neg c, if_neg c]
          by_cases d : p.pos + p.size ≤ f.length
          · rw [if_neg (by omega), if_neg (by have := h4.1 d; omega)]
          · rw [if_pos (by omega), if_pos (by have := fun x => d (h4.2 x); omega)]

section
variable {E : Env} {s : Sys} {id : Nat} {k : B32} {v : Bytes}

/-- A call is a function of the store, and so depends on the places `F` reads. -/
theorem same_of {op : Op} {F : Store → Res (Tx × Ret)} {N V : Nat} (hF : Loc F s.db.store N V)
    (hs : ∀ files, step E (s.withFiles files) op = (do
      let (t, r) ← F (s.withFiles files).db.store
      pure ((s.withFiles files).setTx id (some t), r))) :
    ∃ ps vs : List Ptr, ps.length ≤ N ∧ vs.length ≤ V ∧ (∀ p ∈ ps, p.size ≤ 113) ∧ (∀ p ∈ vs, p.size ≤ 1023) ∧
      ∀ files', (∀ p ∈ ps ++ vs, SameAt s.db.store.files files' p) → SameCall E s op files' := by
  obtain ⟨ps, vs, a, b, c, d, h⟩ := hF
  refine ⟨ps, vs, a, b, c, d, fun files' hf => ?_⟩
  have e := h (s.withFiles files').db.store fun p hp => rd_sameAt (hf p (List.mem_append.2 hp))
  have h1 := hs files'
  have h2 : step E s op = (do
      let (t, r) ← F s.db.store
      pure (s.setTx id (some t), r)) := hs s.db.store.files
  rw [e] at h1
  unfold SameCall
  cases hx : F s.db.store with
  | ok x =>
    rw [hx] at h1 h2
    rw [h2]
    exact h1
  | err _ => rw [hx] at h1 h2; rw [h2]; exact h1
  | abort => rw [hx] at h1 h2; rw [h2]; exact h1
  | ub => rw [hx] at h1 h2; rw [h2]; exact h1

theorem setTx_same {t : Tx} (ht : s.txs id = some t) : s.setTx id (some t) = s := by
  unfold Sys.setTx
  have : (fun i => if i = id then some t else s.txs i) = s.txs := by
    funext i
    split
    · next h => rw [h, ht]
    · rfl
  rw [this]

/-- The result of looking up, testing, proving, inserting or removing a key through a transaction, and the
transaction afterwards, depend on at most 257 node records (258 for a removal) and, for looking up and proving,
on one value of the data files: whatever state the program is in, there are that many places such that the call
does exactly the same with any other files that are the same there. -/
theorem C78_local {op : Op} (hop : op ∈ keyCalls id k v) :
    ∃ ps vs : List Ptr, ps.length ≤ op.nodeReads ∧ vs.length ≤ op.valueReads ∧ (∀ p ∈ ps, p.size ≤ 113) ∧ (∀ p ∈ vs, p.size ≤ 1023) ∧
      ∀ files', (∀ p ∈ ps ++ vs, SameAt s.db.store.files files' p) → SameCall E s op files' := by
  have top : ∀ n : Node, below n 0 ≤ 257 := fun n => below_le n 0
  -- a handle that does not exist
  cases ht : s.txs id with
  | none =>
    refine ⟨[], [], by simp, by simp, by simp, by simp, fun files' _ => ?_⟩
    have h1 : s.tx id = .ub := by unfold Sys.tx; rw [ht]
    have h2 : (s.withFiles files').tx id = .ub := h1
    unfold SameCall
    simp only [keyCalls, List.mem_cons, List.not_mem_nil, or_false] at hop
    rcases hop with rfl | rfl | rfl | rfl | rfl <;> simp only [step, h1, h2, Res.bind_ub]
  | some t =>
    have h2 : ∀ files, (s.withFiles files).tx id = .ok t := fun files => by
      show (match s.txs id with | some t => Res.ok t | none => .ub) = _
      rw [ht]
    have h3 : ∀ files, (s.withFiles files).setTx id (some t) = s.withFiles files := fun files => setTx_same (s := s.withFiles files) ht
    obtain ⟨o⟩ := t
    cases o with
    | none =>
      refine ⟨[], [], by simp, by simp, by simp, by simp, fun files' _ => ?_⟩
      have h1 : s.tx id = .ok ⟨none⟩ := h2 s.db.store.files
      unfold SameCall
      simp only [keyCalls, List.mem_cons, List.not_mem_nil, or_false] at hop
      rcases hop with rfl | rfl | rfl | rfl | rfl
      · simp only [step, h1, h2, Res.bind_ok, txGet, Tx.node, Res.bind_ub, catchErr]
      · simp only [step, h1, h2, Res.bind_ok, txHas, Tx.node, Res.bind_ub, catchErr]
      · simp only [step, h1, h2, Res.bind_ok, txProve, Tx.node, Res.bind_ub]
      · by_cases c : v.length > valueSize
        · simp only [step, h1, h2, Res.bind_ok, txInsert, if_pos c, Res.pure_eq]
          rfl
        · simp only [step, h1, h2, Res.bind_ok, txInsert, if_neg c, Tx.node, Res.bind_ub]
      · simp only [step, h1, h2, Res.bind_ok, txRemove, Tx.node, Res.bind_ub]
    | some n =>
      have hn := top n
      simp only [keyCalls, List.mem_cons, List.not_mem_nil, or_false] at hop
      rcases hop with rfl | rfl | rfl | rfl | rfl
      · refine same_of (id := id) (F := fun S => do
          let r ← catchErr (treeGet S k true treeFuel n 0)
          pure (⟨some n⟩, .ofBytes r)) ?_ fun files => ?_
        · exact ((loc_get treeFuel n 0 (by omega)).comp (fun q => do
            let r ← catchErr q
            pure ((⟨some n⟩ : Tx), Ret.ofBytes r))).mono (by simp only [Op.nodeReads]; omega) (by simp [Op.valueReads])
        · simp only [step, h2, Res.bind_ok, txGet, Tx.node]
          cases treeGet (s.withFiles files).db.store k true treeFuel n 0 <;> simp [catchErr, h3]
      · refine same_of (id := id) (F := fun S => do
          let r ← catchErr (treeGet S k false treeFuel n 0 >>= fun _ => pure ())
          pure (⟨some n⟩, .ofUnit r)) ?_ fun files => ?_
        · exact ((loc_get treeFuel n 0 (by omega)).comp (fun q => do
            let r ← catchErr (q >>= fun _ => pure ())
            pure ((⟨some n⟩ : Tx), Ret.ofUnit r))).mono (by simp only [Op.nodeReads]; omega) (by simp [Op.valueReads])
        · simp only [step, h2, Res.bind_ok, txHas, Tx.node]
          cases treeGet (s.withFiles files).db.store k false treeFuel n 0 <;> simp [catchErr, h3]
      · let g : Res (Option Proof × Node) → Res (Tx × Ret) := fun q => do
          let (r, n) ← q
          match r with
          | none => pure (⟨some n⟩, .ofBytes (.error .ECORRUPTION))
          | some pf => do
            let size ← proofSize pf
            let raw ← proofWrite pf
            if raw.length ≠ size then .ub
            else pure (⟨some n⟩, .ofBytes (.ok raw))
        refine same_of (id := id) (F := fun S => g (treeProve E S k treeFuel n 0 0)) ?_ fun files => ?_
        · exact ((loc_prove treeFuel n 0 0 (by omega)).comp g).mono (by simp only [Op.nodeReads]; omega) (by simp [Op.valueReads])
        · simp only [step, h2, Res.bind_ok, txProve, Tx.node]
          cases treeProve E (s.withFiles files).db.store k treeFuel n 0 0 with
          | ok x =>
            obtain ⟨r, m⟩ := x
            cases r with
            | none => rfl
            | some pf =>
              simp only [Res.bind_ok, g]
              cases proofSize pf with
              | ok a =>
                simp only [Res.bind_ok]
                cases proofWrite pf with
                | ok b =>
                  simp only [Res.bind_ok]
                  split <;> rfl
                | _ => rfl
              | _ => rfl
          | _ => rfl
      · let g : Res Node → Res (Tx × Ret) := fun q => match q with
          | .ok n' => pure (⟨some n'⟩, .ofUnit (.ok ()))
          | .err .ENOUPDATE => pure (⟨some n⟩, .ofUnit (.ok ()))
          | .err e => pure (⟨some n⟩, .ofUnit (.error e))
          | .abort => .abort
          | .ub => .ub
        by_cases c : v.length > valueSize
        · refine same_of (id := id) (F := fun S => pure (⟨some n⟩, .ofUnit (.error .EINVAL))) ((Loc.const _).mono (by simp only [Op.nodeReads]; omega) (by simp [Op.valueReads])) fun files => ?_
          simp only [step, h2, Res.bind_ok, txInsert, if_pos c]
          rfl
        · refine same_of (id := id) (F := fun S => g (treeInsert E S k v treeFuel n 0)) ?_ fun files => ?_
          · exact ((loc_insert treeFuel n 0 (by omega)).comp g).mono (by simp only [Op.nodeReads]; omega) (by simp [Op.valueReads])
          · simp only [step, h2, Res.bind_ok, txInsert, if_neg c, Tx.node]
            cases treeInsert E (s.withFiles files).db.store k v treeFuel n 0 with
            | err e => cases e <;> rfl
            | _ => rfl
      · let g : Res Node → Res (Tx × Ret) := fun q => match q with
          | .ok n' => pure (⟨some n'⟩, .ofUnit (.ok ()))
          | .err e => pure (⟨some n⟩, .ofUnit (.error e))
          | .abort => .abort
          | .ub => .ub
        refine same_of (id := id) (F := fun S => g (treeRemove S k treeFuel n 0)) ?_ fun files => ?_
        · exact ((loc_remove treeFuel n 0 (by omega)).1.comp g).mono (by simp only [Op.nodeReads]; omega) (by simp [Op.valueReads])
        · simp only [step, h2, Res.bind_ok, txRemove, Tx.node]
          cases treeRemove (s.withFiles files).db.store k treeFuel n 0 with
          | err e => cases e <;> rfl
          | _ => rfl

/-- In terms of single bytes: the call depends on at most 258 · 113 + 1023 bytes of the data files. Damage to
any other bytes, however large the database is, does not change what the call does. -/
theorem C78_bytes {op : Op} (hop : op ∈ keyCalls id k v) :
    ∃ bs : List (Nat × Nat), bs.length ≤ 258 * 113 + 1023 ∧
      ∀ files', files'.map List.length = s.db.store.files.map List.length →
        (∀ b ∈ bs, byteAt files' b.1 b.2 = byteAt s.db.store.files b.1 b.2) → SameCall E s op files' := by
  obtain ⟨ps, vs, h1, h2, h3, h4, h⟩ := C78_local (E := E) (s := s) hop
  refine ⟨(ps ++ vs).flatMap fun p => (List.range p.size).map fun j => (p.index - 1, p.pos + j), ?_, fun files' hl hb => h files' fun p hp => ?_⟩
  · have hn : op.nodeReads ≤ 258 := by cases op <;> simp [Op.nodeReads]
    have hv : op.valueReads ≤ 1 := by cases op <;> simp [Op.valueReads]
    have sum_le : ∀ (l : List Ptr) (c : Nat), (∀ p ∈ l, p.size ≤ c) → (l.flatMap fun p => (List.range p.size).map fun j => (p.index - 1, p.pos + j)).length ≤ l.length * c := by
      intro l c hc
      induction l with
      | nil => simp
      | cons p l ih =>
        have := ih fun q hq => hc q (by simp [hq])
        have := hc p (by simp)
        rw [List.flatMap_cons, List.length_append, List.length_map, List.length_range, List.length_cons, Nat.add_mul]
        omega
    have a := sum_le ps 113 h3
    have b := sum_le vs 1023 h4
    rw [List.flatMap_append, List.length_append]
    have : ps.length * 113 ≤ 258 * 113 := Nat.mul_le_mul_right _ (by omega)
    have : vs.length * 1023 ≤ 1 * 1023 := Nat.mul_le_mul_right _ (by omega)
    omega
  · have hb' : ∀ j, j < p.size → byteAt files' (p.index - 1) (p.pos + j) = byteAt s.db.store.files (p.index - 1) (p.pos + j) := by
      intro j hj
      refine hb (p.index - 1, p.pos + j) (List.mem_flatMap.2 ⟨p, hp, List.mem_map.2 ⟨j, List.mem_range.2 hj, rfl⟩⟩)
    have hl' : files'.length = s.db.store.files.length := by
      have := congrArg List.length hl
      simpa using this
    unfold byteAt at hb'
    cases e1 : s.db.store.files[p.index - 1]? with
    | none =>
      refine .inl ⟨e1, ?_⟩
      rw [List.getElem?_eq_none_iff] at e1 ⊢
      omega
    | some f =>
      cases e2 : files'[p.index - 1]? with
      | none =>
        rw [List.getElem?_eq_none_iff] at e2
        have := (List.getElem?_eq_some_iff.1 e1).1
        omega
      | some f' =>
        have hlen : f'.length = f.length := by
          have := congrArg (fun l => l[p.index - 1]?) hl
          simp only [List.getElem?_map, e1, e2, Option.map_some, Option.some.injEq] at this
          exact this
        refine .inr ⟨f, f', e1, e2, ?_, by rw [hlen]⟩
        simp only [e1, e2, Option.bind_some] at hb'
        apply List.ext_getElem?
        intro j
        simp only [List.getElem?_take, List.getElem?_drop]
        split
        · next hj => exact (hb' j hj).symm
        · rfl

/-- Creating a transaction on the current root, clearing and destroying it and asking for root hashes does not
depend on the data files at all. -/
theorem C78_free {op : Op} (hop : op = .create id none ∧ s.db.revert = false ∨ op ∈ [.root, .clear id, .destroy id, .txRoot id]) (files' : List Bytes) :
    SameCall E s op files' := by
  unfold SameCall
  have ht : ∀ files, (s.withFiles files).tx id = s.tx id := fun _ => rfl
  have h0 : s.withFiles s.db.store.files = s := rfl
  simp only [List.mem_cons, List.not_mem_nil, or_false] at hop
  rcases hop with ⟨rfl, hr⟩ | rfl | rfl | rfl | rfl
  · have hr' : (s.withFiles files').db.revert = false := hr
    simp only [step, txCreate, hr, hr', Bool.false_eq_true, if_false, Res.bind_ok]
    rfl
  · rfl
  · simp only [step, ht]
    cases s.tx id with
    | ok t =>
      simp only [Res.bind_ok, txClear]
      cases t.node <;> rfl
    | _ => rfl
  · simp only [step, ht]
    cases s.tx id with
    | ok t =>
      simp only [Res.bind_ok, txDestroy]
      cases t.node <;> rfl
    | _ => rfl
  · simp only [step, ht]
    cases s.tx id with
    | ok t =>
      simp only [Res.bind_ok, txRoot]
      cases t.node with
      | ok n =>
        simp only [Res.bind_ok]
        cases nodeHash E.H n <;> rfl
      | _ => rfl
    | _ => rfl

end

/-- The theorems speak about real dependence: after a commit of one pair, the value is found, and with one other
byte in its place another value is found; with one other byte in the padding everything is as before. -/
example : ∃ s : Sys, s.txs 0 ≠ none ∧
    (∃ s2, step toyEnv s (.get 0 B32.zero) = .ok (s2, .bytes [1, 2, 3])) ∧
    (∃ f s2, s.db.store.files = [f] ∧ step toyEnv (s.withFiles [f.set 1 9]) (.get 0 B32.zero) = .ok (s2, .bytes [1, 9, 3])) ∧
    ∃ f s2, s.db.store.files = [f] ∧ step toyEnv (s.withFiles [f.set 50 9]) (.get 0 B32.zero) = .ok (s2, .bytes [1, 2, 3]) := by
  have h : (match txCommit toyEnv db0 (leafTx B32.zero [1, 2, 3]) with
    | .ok (db, t, .ok ()) => (match db.store.files with
      | [f] => (match txGet db t B32.zero, txGet { db with store := { db.store with files := [f.set 1 9] } } t B32.zero, txGet { db with store := { db.store with files := [f.set 50 9] } } t B32.zero with
        | .ok a, .ok b, .ok c => decide (a = [1, 2, 3]) && decide (b = [1, 9, 3]) && decide (c = [1, 2, 3])
        | _, _, _ => false)
      | _ => false)
    | _ => false) = true := by decide +kernel
  generalize txCommit toyEnv db0 (leafTx B32.zero [1, 2, 3]) = q at h
  split at h
  · next db t =>
    split at h
    · next f hf =>
      split at h
      · next a b c e1 e2 e3 =>
        simp only [Bool.and_eq_true, decide_eq_true_eq] at h
        obtain ⟨⟨rfl, rfl⟩, rfl⟩ := h
        have ht : ∀ files, ((⟨db, fun _ => some t⟩ : Sys).withFiles files).tx 0 = .ok t := fun _ => rfl
        refine ⟨⟨db, fun _ => some t⟩, by simp, ⟨⟨db, fun _ => some t⟩, ?_⟩, ⟨f, (⟨db, fun _ => some t⟩ : Sys).withFiles [f.set 1 9], hf, ?_⟩, ⟨f, (⟨db, fun _ => some t⟩ : Sys).withFiles [f.set 50 9], hf, ?_⟩⟩
        · simp only [step, Sys.tx, Res.bind_ok]
          rw [e1]; rfl
        · simp only [step, ht, Res.bind_ok]
          show (catchErr (txGet { db with store := { db.store with files := [f.set 1 9] } } t B32.zero) >>= _) = _
          rw [e2]; rfl
        · simp only [step, ht, Res.bind_ok]
          show (catchErr (txGet { db with store := { db.store with files := [f.set 50 9] } } t B32.zero) >>= _) = _
          rw [e3]; rfl
      · cases h
    · cases h
  · cases h

end Urkel
