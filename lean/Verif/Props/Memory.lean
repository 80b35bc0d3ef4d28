import Verif.Lemmas.HeapSys
import Verif.Lemmas.HeapVerify
import Verif.Lemmas.Concrete
import Verif.Props.Whole
import Verif.Props.Proofs
/-
C63: memory is used correctly; C64: memory is given back.
-/
namespace Urkel

/-! ### C63 -/

theorem hRun_ok {A : Alloc} {E : Env} {s s' : Sys} {tr : List (Op × Ret)} (h : NeatCalls E s tr s') :
    ∀ (ids : List Nat) (hs : HSys), Agree ids s hs → Triple (sysHeap ids s hs) (hRun A E hs (tr.map Prod.fst)) (fun x =>
      ex fun ids' => lpure (x.2 = tr.map Prod.snd ∧ Agree ids' s' x.1) ∗∗ sysHeap ids' s' x.1) := by
  induction h with
  | nil s => intro ids hs ha; exact Triple.ret fun m hm => ⟨ids, lpure_sep.2 ⟨⟨rfl, ha⟩, hm⟩⟩
  | @cons s s1 s2 op r tr hn e _ ih =>
    intro ids hs ha
    refine Triple.bind (hStep_ok (A := A) ha hn e) (R := emp) (by rw [sep_emp]) fun x => ?_
    · obtain ⟨hs1, r1⟩ := x
      rw [sep_emp]
      refine Triple.ex_pre fun ids1 => ?_
      refine Triple.pure_pre fun h1 => ?_
      obtain ⟨hr1, ha1⟩ := h1
      dsimp only at hr1 ha1
      subst hr1
      refine Triple.bind (ih ids1 hs1 ha1) (R := emp) (by rw [sep_emp]) fun x => ?_
      obtain ⟨hs2, rs⟩ := x
      rw [sep_emp]
      refine Triple.ex_pre fun ids2 => ?_
      refine Triple.pure_pre fun h2 => ?_
      exact Triple.ret fun m hm => ⟨ids2, lpure_sep.2 ⟨⟨by rw [List.map_cons]; exact congrArg _ h2.1, h2.2⟩, hm⟩⟩

/-- A heap in which exactly the addresses satisfying `p` are in use. -/
def Heap.Uses (h : Heap) (p : Nat → Prop) : Prop := ∀ a, h.lookup a ≠ none ↔ p a

theorem star_emp {ids : List Nat} {s : Sys} {hs : HSys} (h : ∀ i, s.txs i = none) {m : Nat → Option Cell}
    (hm : star ids (fun i => ownH (s.txs i) (hs.txs i)) m) : emp m := by
  induction ids generalizing m with
  | nil => exact hm
  | cons i is ih =>
    obtain ⟨m1, m2, _, he, h1, h2⟩ := hm
    have h1' : emp m1 := by
      have h1 : ownH (s.txs i) (hs.txs i) m1 := h1
      rw [h i] at h1; exact (ownH_none h1).2
    intro a
    rw [he a, h1' a, ih h2 a]; rfl

/-- The memory of a program after any calls. -/
theorem hSession_spec {A : Alloc} {E : Env} {d d' : Dir} {rand : B32} {db : Db} {tr : List (Op × Ret)} {s : Sys}
    (ho : dbOpen E d rand = .ok (d', .ok db)) (hc : NeatCalls E ⟨db, fun _ => none⟩ tr s) :
    Triple emp (hSession A E d rand (tr.map Prod.fst)) (fun x => ex fun hs => ex fun ids =>
      lpure (x = .ok (hs, tr.map Prod.snd) ∧ Agree ids s hs) ∗∗ sysHeap ids s hs) := by
  unfold hSession
  refine Triple.bind (m := hOpen A E d rand) (P0 := emp) (R := emp)
    (Q0 := fun x => ex fun hs => lpure (x = (d', .ok hs) ∧ Agree [] ⟨db, fun _ => none⟩ hs) ∗∗ sysHeap [] ⟨db, fun _ => none⟩ hs) ?_ (by rw [emp_sep]) ?_
  · unfold hOpen
    refine Triple.malloc fun obj => ?_
    refine Triple.lift ho ?_
    refine Triple.malloc fun lock => ?_
    refine Triple.ret fun m hm => ⟨⟨db, obj, lock, fun _ => none⟩, lpure_sep.2 ⟨⟨rfl, rfl, dbOpen_flat ho, List.nodup_nil, fun i _ => ⟨rfl, rfl⟩⟩, ?_⟩⟩
    show (pts obj .raw ∗∗ pts lock .raw ∗∗ emp) m
    perm hm
  · intro x
    rw [sep_emp]
    refine Triple.ex_pre fun hs => ?_
    refine Triple.pure_pre fun h => ?_
    obtain ⟨rfl, ha⟩ := h
    refine Triple.bind (hRun_ok (A := A) hc [] hs ha) (R := emp) (by rw [sep_emp]) fun y => ?_
    rw [sep_emp]
    refine Triple.ex_pre fun ids => ?_
    refine Triple.pure_pre fun h => ?_
    exact Triple.ret fun m hm => ⟨y.1, ids, lpure_sep.2 ⟨⟨by rw [← h.1], h.2⟩, hm⟩⟩

/-- C63 for any directory: faults, damaged files and values of any size included. Suppose
the database opens and the functional model returns from every call. Then so does the
program with memory, whatever addresses `malloc` returns: it never uses or frees a block
that is not allocated, each call gives the same result, and in the end the database is
the same and the same transactions are open. -/
theorem C63_same {A : Alloc} {E : Env} {d d' : Dir} {rand : B32} {db : Db} {tr : List (Op × Ret)} {s : Sys}
    (ho : dbOpen E d rand = .ok (d', .ok db)) (hc : NeatCalls E ⟨db, fun _ => none⟩ tr s) :
    ∃ hs heap, hSession A E d rand (tr.map Prod.fst) [] = .ok (.ok (hs, tr.map Prod.snd), heap) ∧ hs.db = s.db ∧
      (∀ i, hs.txs i ≠ none ↔ s.txs i ≠ none) ∧
      -- and if no transaction is open, all that is allocated is the database, and closing frees it
      ((∀ i, s.txs i = none) → heap.Uses (fun a => a = hs.obj ∨ a = hs.lock) ∧ hs.obj ≠ hs.lock ∧ hClose hs heap = .ok ((), [])) := by
  have key := hSession_spec (A := A) ho hc
  obtain ⟨x, heap, e, hx⟩ := key emp [] (by rw [emp_sep]; intro a; rfl)
  rw [sep_emp] at hx
  obtain ⟨hs, ids, hx⟩ := hx
  obtain ⟨⟨rfl, ha⟩, hm⟩ := lpure_sep.1 hx
  refine ⟨hs, heap, e, ha.db, ?_, ?_⟩
  · intro i
    by_cases hi : i ∈ ids
    · unfold sysHeap at hm
      rw [star_take _ hi, ← sep_assoc, ← sep_assoc] at hm
      obtain ⟨m1, m2, _, _, h1, _⟩ := hm
      obtain ⟨m3, m4, _, _, _, h4⟩ := h1
      cases hst : s.txs i with
      | none => rw [hst] at h4; simp [(ownH_none h4).1]
      | some t => rw [hst] at h4; obtain ⟨b, hb, _⟩ := ownH_some h4; simp [hb]
    · simp [(ha.other i hi).1, (ha.other i hi).2]
  · intro hn
    have hm2 : (pts hs.obj .raw ∗∗ pts hs.lock .raw ∗∗ emp) (view heap) := by
      obtain ⟨m1, m2, hd, he, h1, h2⟩ := hm
      refine ⟨m1, m2, hd, he, h1, ?_⟩
      obtain ⟨m3, m4, hd, he, h3, h4⟩ := h2
      exact ⟨m3, m4, hd, he, h3, star_emp hn h4⟩
    refine ⟨?_, pts_ne hm2, ?_⟩
    · intro a
      rw [sep_emp] at hm2
      obtain ⟨m1, m2, hd, he, h1, h2⟩ := hm2
      show view heap a ≠ none ↔ _
      rw [he a, h1 a, h2 a]
      by_cases h1 : a = hs.obj
      · simp [h1]
      · by_cases h2 : a = hs.lock <;> simp [h1, h2]
    · have key : Triple (pts hs.obj .raw ∗∗ pts hs.lock .raw) (hClose hs) (fun _ => emp) := by
        unfold hClose
        refine Triple.free (a := hs.lock) (c := .raw) (by frames) ?_
        refine Triple.last ?_
        refine Triple.free (a := hs.obj) (c := .raw) (by frames) ?_
        exact Triple.ret fun m hm => hm
      rw [← sep_assoc] at hm2
      obtain ⟨_, h', e', hh⟩ := key emp heap hm2
      rw [sep_emp] at hh
      rw [e', heap_empty hh]

theorem NeatCalls.snoc {E : Env} {s s1 s2 : Sys} {tr : List (Op × Ret)} {op : Op} {r : Ret} (h : NeatCalls E s tr s1) (hn : Neat s1 op)
    (e : step E s1 op = .ok (s2, r)) : NeatCalls E s (tr ++ [(op, r)]) s2 := by
  induction h with
  | nil s => exact .cons hn e (.nil _)
  | cons hn0 e0 _ ih => exact .cons hn0 e0 (ih hn e)

theorem handles_snoc (tr : List (Op × Ret)) (x : Op × Ret) : handles (tr ++ [x]) = handlesStep (handles tr) x := by
  unfold handles; rw [List.foldl_append]; rfl

theorem step_handles {E : Env} {s s' : Sys} {op : Op} {r : Ret} (e : step E s op = .ok (s', r)) (i : Nat) :
    (s'.txs i).isSome = handlesStep (fun i => (s.txs i).isSome) (op, r) i := by
  have put : ∀ {id : Nat} {t t' : Tx} {s1 : Sys}, s.tx id = .ok t → s1.txs = s.txs → ((s1.setTx id (some t')).txs i).isSome = (s.txs i).isSome := by
    intro id t t' s1 e1 e2
    show (if i = id then some t' else s1.txs i).isSome = _
    rw [e2]
    by_cases hi : i = id
    · subst hi; rw [tx_some e1, if_pos rfl]; rfl
    · rw [if_neg hi]
  cases op with
  | root => cases e; rfl
  | inject h => obtain ⟨⟨db, x⟩, _, e⟩ := Res.bind_eq_ok.1 e; cases e; rfl
  | create id h =>
    obtain ⟨⟨db, x⟩, _, e⟩ := Res.bind_eq_ok.1 e
    cases x with
    | error er => cases e; rfl
    | ok t =>
      cases e
      show (if i = id then some t else s.txs i).isSome = (decide (i = id) || (s.txs i).isSome)
      by_cases hi : i = id
      · simp [hi]
      · simp [hi]
  | destroy id =>
    obtain ⟨t, _, e⟩ := Res.bind_eq_ok.1 e
    obtain ⟨_, _, e⟩ := Res.bind_eq_ok.1 e
    cases e
    show (if i = id then none else s.txs i).isSome = ((i != id) && (s.txs i).isSome)
    by_cases hi : i = id
    · simp [hi]
    · simp [hi]
  | clear id =>
    obtain ⟨t, e1, e⟩ := Res.bind_eq_ok.1 e
    obtain ⟨t', _, e⟩ := Res.bind_eq_ok.1 e
    cases e; exact put e1 rfl
  | txRoot id =>
    obtain ⟨t, e1, e⟩ := Res.bind_eq_ok.1 e
    obtain ⟨⟨t', h⟩, _, e⟩ := Res.bind_eq_ok.1 e
    cases e; exact put e1 rfl
  | txInject id h =>
    obtain ⟨t, e1, e⟩ := Res.bind_eq_ok.1 e
    obtain ⟨⟨db, t', h⟩, _, e⟩ := Res.bind_eq_ok.1 e
    cases e; exact put e1 rfl
  | get id k =>
    obtain ⟨t, e1, e⟩ := Res.bind_eq_ok.1 e
    obtain ⟨x, _, e⟩ := Res.bind_eq_ok.1 e
    cases e; rfl
  | has id k =>
    obtain ⟨t, e1, e⟩ := Res.bind_eq_ok.1 e
    obtain ⟨x, _, e⟩ := Res.bind_eq_ok.1 e
    cases e; rfl
  | insert id k v =>
    obtain ⟨t, e1, e⟩ := Res.bind_eq_ok.1 e
    obtain ⟨⟨t', x⟩, _, e⟩ := Res.bind_eq_ok.1 e
    cases e; exact put e1 rfl
  | remove id k =>
    obtain ⟨t, e1, e⟩ := Res.bind_eq_ok.1 e
    obtain ⟨⟨t', x⟩, _, e⟩ := Res.bind_eq_ok.1 e
    cases e; exact put e1 rfl
  | prove id k =>
    obtain ⟨t, e1, e⟩ := Res.bind_eq_ok.1 e
    obtain ⟨⟨t', x⟩, _, e⟩ := Res.bind_eq_ok.1 e
    cases e; exact put e1 rfl
  | commit id =>
    obtain ⟨t, e1, e⟩ := Res.bind_eq_ok.1 e
    obtain ⟨⟨db, t', h⟩, _, e⟩ := Res.bind_eq_ok.1 e
    cases e; exact put e1 rfl
  | reopen rand =>
    obtain ⟨⟨d, x⟩, _, e⟩ := Res.bind_eq_ok.1 e
    cases x with
    | error er => cases e
    | ok db => cases e; rfl
  | get1 k h => obtain ⟨⟨db, x⟩, _, e⟩ := Res.bind_eq_ok.1 e; cases e; rfl
  | has1 k h => obtain ⟨⟨db, x⟩, _, e⟩ := Res.bind_eq_ok.1 e; cases e; rfl
  | insert1 k v => obtain ⟨⟨db, x⟩, _, e⟩ := Res.bind_eq_ok.1 e; cases e; rfl
  | remove1 k => obtain ⟨⟨db, x⟩, _, e⟩ := Res.bind_eq_ok.1 e; cases e; rfl
  | prove1 k h => obtain ⟨⟨db, x⟩, _, e⟩ := Res.bind_eq_ok.1 e; cases e; rfl

theorem NeatTrace.init {tr : List (Op × Ret)} {x : Op × Ret} (h : NeatTrace (tr ++ [x])) : NeatTrace tr :=
  ⟨fun pre id hh r suf e => h.1 pre id hh r (suf ++ [x]) (by rw [e]; simp), fun pre rand r suf e => h.2 pre rand r (suf ++ [x]) (by rw [e]; simp)⟩

theorem exec_calls {E : Env} {tr : List (Op × Ret)} {s : Sys} (h : Exec E tr s) (hn : NeatTrace tr) :
    ∃ rand d db, dbOpen E Dir.fresh rand = .ok (d, .ok db) ∧ NeatCalls E ⟨db, fun _ => none⟩ tr s ∧ ∀ i, (s.txs i).isSome = handles tr i := by
  induction h with
  | start hs =>
    obtain ⟨rand, d, db, e, rfl⟩ := hs
    exact ⟨rand, d, db, e, .nil _, fun i => rfl⟩
  | @step tr s s' op r _ _ e ih =>
    obtain ⟨rand, d, db, e1, hc, hh⟩ := ih hn.init
    have none_of : ∀ {i}, handles tr i = false → s.txs i = none := by
      intro i hi
      have := hh i
      rw [hi] at this
      simpa using this
    refine ⟨rand, d, db, e1, hc.snoc ?_ e, fun i => ?_⟩
    · cases op with
      | create id h => exact none_of (hn.1 tr id h r [] rfl)
      | reopen rand => exact fun i => none_of (hn.2 tr rand r [] rfl i)
      | _ => trivial
    · rw [step_handles e i, handles_snoc]
      have : (fun i => (s.txs i).isSome) = handles tr := funext hh
      rw [this]

/-- C63 for the programs covered by C46, from a new directory: every call returns, with
the result of the functional model, and never uses or frees a block that is not
allocated. -/
theorem C63_programs {A : Alloc} {E : Env} (hE : EnvOk E) {tr : List (Op × Ret)} {s : Sys} (h : Exec E tr s) (hn : NeatTrace tr) :
    ∃ rand hs heap, hSession A E Dir.fresh rand (tr.map Prod.fst) [] = .ok (.ok (hs, tr.map Prod.snd), heap) ∧ hs.db = s.db ∧
      (∀ i, hs.txs i ≠ none ↔ handles tr i = true) := by
  obtain ⟨sp, hist, hsp, _⟩ := exec_sim hE h
  obtain ⟨rand, d, db, e, hc, hh⟩ := exec_calls h hn
  obtain ⟨hs, heap, e1, e2, e3, _⟩ := C63_same (A := A) e hc
  refine ⟨rand, hs, heap, e1, e2, fun i => ?_⟩
  rw [e3 i, ← hh i]
  simp [Option.isSome_iff_ne_none]

/-- An allocator for the examples: the address after the highest one in use. -/
def bumpAlloc : Alloc where
  pick h := h.foldr (fun e n => max (e.1 + 1) n) 0
  fresh h := by
    have key : ∀ h : Heap, ∀ a, h.foldr (fun e n => max (e.1 + 1) n) 0 ≤ a → h.lookup a = none := by
      intro h
      induction h with
      | nil => intro a _; rfl
      | cons e h ih =>
        intro a ha
        simp only [List.foldr_cons] at ha
        rw [List.lookup_cons]
        have : (a == e.1) = false := by simp; omega
        rw [this]
        exact ih a (by omega)
    exact key h _ (Nat.le_refl _)

/-- Two insertions, a removal that collapses a node, a proof, a commit, a reopen and a
one-shot read. -/
def exampleOps : List Op :=
  [.create 0 none, .insert 0 (keyOf 1) [7], .insert 0 (keyOf 129) [], .insert 0 (keyOf 3) [5], .remove 0 (keyOf 129), .prove 0 (keyOf 4),
    .commit 0, .get 0 (keyOf 3), .clear 0, .has 0 (keyOf 1), .destroy 0, .get1 (keyOf 1) none, .remove1 (keyOf 1)]

def exampleCheck : Bool := match hSession bumpAlloc toyEnv Dir.fresh B32.zero exampleOps [] with
  | .ok (.ok (hs, rs), heap) => decide (heap.length = 2 ∧ rs.length = 13 ∧ rs.getLast? = some .unit ∧ rs[7]? = some (.bytes [5]) ∧ rs[11]? = some (.bytes [7])) &&
    (match hClose hs heap with | .ok ((), []) => true | _ => false)
  | _ => false

/-- A concrete run of the program with memory. -/
example : exampleCheck = true := by decide +kernel

/-- A program whose system calls fail as listed after it has opened the database. -/
def hFaulty (A : Alloc) (E : Env) (d : Dir) (rand : B32) (fs : List (Option Fault)) (ops : List Op) : HM (Except Err (HSys × List Ret)) := do
  let (_, r) ← hOpen A E d rand
  match r with
  | .error e => pure (.error e)
  | .ok s => do
    let x ← hRun A E { s with db := s.db.under fs } ops
    pure (.ok x)

def danglingCheck : Bool :=
  (match hFaulty bumpAlloc toyEnv Dir.fresh B32.zero [some (.writeFail 5)] [.create 0 none, .insert 0 (keyOf 1) [7], .commit 0] [] with
    | .ok (.ok (_, [.unit, .unit, .fail .EBADWRITE]), _) => true | _ => false) &&
  (match hFaulty bumpAlloc toyEnv Dir.fresh B32.zero [some (.writeFail 5)] [.create 0 none, .insert 0 (keyOf 1) [7], .commit 0, .destroy 0] [] with
    | .ub => true | _ => false)

/-- C63 is false when a commit fails: the transaction keeps the address of a root that has
been freed, and destroying it uses that address. -/
theorem C63_false : ∃ hs heap,
    hFaulty bumpAlloc toyEnv Dir.fresh B32.zero [some (.writeFail 5)] [.create 0 none, .insert 0 (keyOf 1) [7], .commit 0] [] =
      .ok (.ok (hs, [.unit, .unit, .fail .EBADWRITE]), heap) ∧
    hFaulty bumpAlloc toyEnv Dir.fresh B32.zero [some (.writeFail 5)] [.create 0 none, .insert 0 (keyOf 1) [7], .commit 0, .destroy 0] [] = .ub := by
  have h : danglingCheck = true := by decide +kernel
  unfold danglingCheck at h
  rw [Bool.and_eq_true] at h
  obtain ⟨h1, h2⟩ := h
  split at h1
  · next hs heap e =>
    split at h2
    · next e2 => exact ⟨hs, heap, e, e2⟩
    · cases h2
  · cases h1

/-! ### C64 -/

/-- A program to which C63 and C64 apply: create, insert, commit, destroy. -/
example : ∃ r r' s, Exec toyEnv [(.create 0 none, .unit), (.insert 0 (keyOf 1) [7], .unit), (.commit 0, r), (.destroy 0, r')] s ∧
    NeatTrace [(.create 0 none, .unit), (.insert 0 (keyOf 1) [7], .unit), (.commit 0, r), (.destroy 0, r')] ∧
    ∀ i, handles [(.create 0 none, .unit), (.insert 0 (keyOf 1) [7], .unit), (.commit 0, r), (.destroy 0, r')] i = false := by
  have h1 : Exec toyEnv [(.create 0 none, .unit)] sys1 := .step (tr := []) (.start sys0_started) trivial sys1_step
  have h2 : Exec toyEnv [(.create 0 none, .unit), (.insert 0 (keyOf 1) [7], .unit)] (sys2 (keyOf 1) [7]) :=
    .step h1 (by simp [Allowed, sys1, Sys.setTx]) (sys2_step _ _ (by decide))
  have a3 : Allowed toyEnv (sys2 (keyOf 1) [7]) (.commit 0) := ⟨_, sys2_tx _ _, sys2_can _ _ (by decide)⟩
  obtain ⟨s3, r, e3⟩ := C46_no_abort toyEnv_ok ⟨_, h2⟩ a3
  have h3 := h2.step a3 e3
  have a4 : Allowed toyEnv s3 (.destroy 0) := by
    have := step_handles e3 0
    show s3.txs 0 ≠ none
    rw [← Option.isSome_iff_ne_none, this]; rfl
  obtain ⟨s4, r', e4⟩ := C46_no_abort toyEnv_ok ⟨_, h3⟩ a4
  refine ⟨r, r', s4, h3.step a4 e4, ⟨?_, ?_⟩, ?_⟩
  · intro pre id h r1 suf e
    rcases pre with _ | ⟨a, _ | ⟨b, _ | ⟨c, _ | ⟨d, _ | ⟨f, pre⟩⟩⟩⟩⟩ <;> simp_all [handles]
  · intro pre rand r1 suf e
    rcases pre with _ | ⟨a, _ | ⟨b, _ | ⟨c, _ | ⟨d, _ | ⟨f, pre⟩⟩⟩⟩⟩ <;> simp_all
  · intro i
    by_cases hi : i = 0 <;> simp [handles, handlesStep, hi]

/-- `urkel_verify`, for every input that parses as a proof, whether or not it proves
anything: the outcome is the one of the functional model, and every block is what it was
before. -/
theorem C64_verify {A : Alloc} {H : HashFn} {raw : Bytes} {key root : B32} {p : Proof} (e : proofRead raw = .ok (some p)) (heap : Heap) :
    ∃ out heap', urkelVerify H raw key root = .ok out ∧ hVerify A H raw key root heap = .ok (out, heap') ∧ ∀ a, heap'.lookup a = heap.lookup a := by
  obtain ⟨out, hv⟩ : ∃ out, urkelVerify H raw key root = .ok out := by
    obtain ⟨o, h, _⟩ := C13_verify_total H raw key root
    exact ⟨o, h⟩
  obtain ⟨x, heap', e1, hx⟩ := hVerify_read (A := A) e hv (fun m => m = view heap) heap (by rw [emp_sep])
  dsimp only at hx
  rw [sep_emp] at hx
  have h2 := lpure_sep.1 hx
  exact ⟨x, heap', h2.1 ▸ hv, e1, fun a => congrFun (h2.2 : view heap' = view heap) a⟩

/-- C64 is false for `urkel_verify`: a proof with extra bytes after its end is refused
with EINVAL, as C12 says, and the nodes of the proof stay allocated, one block for each
of up to 256 nodes, each time the function is called. -/
theorem C64_verify_false {A : Alloc} {H : HashFn} {raw x : Bytes} {key root : B32} {p : Proof} (e : proofRead raw = .ok (some p)) (hx : x ≠ [])
    (heap : Heap) : ∃ new, hVerify A H (raw ++ x) key root heap = .ok (⟨.error .EINVAL, false, []⟩, new ++ heap) ∧ new.length = p.nodes.length :=
  hVerify_extra e hx heap

/-- A proof with any number of nodes up to 256. -/
example (n : Nat) (hn : n ≤ 256) : ∃ raw p, proofRead raw = .ok (some p) ∧ p.nodes.length = n := by
  let p : Proof := ⟨0, List.replicate n ⟨⟨0, List.replicate 32 0⟩, B32.zero⟩, .deadend⟩
  refine ⟨encProof p, p, proofRead_enc ⟨by simp [p], by simpa [p] using hn, ?_, trivial⟩, by simp [p]⟩
  intro m hm
  rw [(List.mem_replicate.1 hm).2]
  exact ⟨by decide, [], rfl, rfl⟩

/-- C64 is false for `urkel_open`: whenever it fails, the block of `urkel_t` stays
allocated and nothing refers to it. -/
theorem C64_open_false {A : Alloc} {E : Env} {d d' : Dir} {rand : B32} {er : Err} (e : dbOpen E d rand = .ok (d', .error er)) (heap : Heap) :
    hOpen A E d rand heap = .ok ((d', .error er), (A.pick heap, .raw) :: heap) := by
  unfold hOpen
  rw [HM.bind_of (m := malloc A .raw) (a := A.pick heap) (h' := (A.pick heap, .raw) :: heap) rfl, HM.lift_bind e]
  rfl


/-- C64 for the programs covered by C46: when every transaction has been destroyed, the
only blocks left are those of `urkel_open`, however many calls were made, and
`urkel_close` frees them: nothing is left. -/
theorem C64_no_leak {A : Alloc} {E : Env} (hE : EnvOk E) {tr : List (Op × Ret)} {s : Sys} (h : Exec E tr s) (hn : NeatTrace tr)
    (hc : ∀ i, handles tr i = false) :
    ∃ rand hs heap, hSession A E Dir.fresh rand (tr.map Prod.fst) [] = .ok (.ok (hs, tr.map Prod.snd), heap) ∧
      heap.Uses (fun a => a = hs.obj ∨ a = hs.lock) ∧ hClose hs heap = .ok ((), []) := by
  obtain ⟨sp, hist, hsp, _⟩ := exec_sim hE h
  obtain ⟨rand, d, db, e, hcl, hh⟩ := exec_calls h hn
  obtain ⟨hs, heap, e1, e2, e3, e4⟩ := C63_same (A := A) e hcl
  obtain ⟨h1, _, h3⟩ := e4 fun i => by
    have := hh i
    rw [hc i] at this
    simpa using this
  exact ⟨rand, hs, heap, e1, h1, h3⟩

end Urkel
