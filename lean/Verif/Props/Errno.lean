import Verif.Lemmas.Errno
import Verif.Props.Iter
import Verif.Props.Keep
import Verif.Props.Proofs
import Verif.Props.Whole
import Verif.Props.Failed
import Verif.Lemmas.Idem
import Verif.Props.Format
import Verif.Lemmas.Faults
/-
C89: return values, output parameters and `urkel_errno`.
-/
namespace Urkel
variable {E : Env}

theorem SOk.backed {s : Store} (h : SOk s) : s.Backed := by
  intro f hf
  rw [h.cur, List.getD_eq_getElem?_getD, hf]
  exact Nat.le_refl _

/-- The current file is there and has at least the bytes the store counts. -/
def Firm (s : Store) : Prop := s.index - 1 < s.files.length ∧ s.Backed

theorem firm_append {s : Store} (h : Firm s) {x : Bytes} {k : Nat} (hk : k ≤ x.length) (o : List IoEv) :
    Firm { s with files := appendFile s.files s.index x, curSize := s.curSize + k, io := o } := by
  refine ⟨?_, ?_⟩
  · simpa [appendFile, List.length_modify] using h.1
  · intro f hf
    simp only [appendFile, List.getElem?_modify_eq] at hf
    cases e : s.files[s.index - 1]? with
    | none => rw [e] at hf; cases hf
    | some g =>
      rw [e] at hf
      cases hf
      have := h.2 g e
      simp only [List.length_append]; omega

theorem firm_wr {t t' : Store} {fault : Option Fault} {d : Bytes} {ok : Bool} (ht : Firm t) (e : wrBytes t d fault = .ok (t', ok)) : Firm t' := by
  unfold wrBytes at e
  split at e
  · cases e; exact ht
  · split at e
    · cases e; exact firm_append ht (Nat.zero_le _) _
    · cases e; exact firm_append ht (Nat.le_refl _) _
    · cases e; exact firm_append ht (Nat.le_refl _) _

/-- The file after the current one, created if it is not there. -/
def nextFile (s : Store) : Store :=
  if s.files.length ≤ s.index then { s with files := s.files ++ [[]], io := .create (s.index + 1) :: s.io } else s

theorem nextFile_firm {s : Store} (h : Firm s) : Firm (nextFile s) ∧ s.index < (nextFile s).files.length ∧ (nextFile s).index = s.index := by
  have h1 := h.1
  unfold nextFile
  split
  · refine ⟨⟨?_, ?_⟩, ?_, rfl⟩
    · simp only [List.length_append]; omega
    · intro f hf
      simp only [List.getElem?_append_left h1] at hf
      exact h.2 f hf
    · simp only [List.length_append, List.length_singleton]; omega
  · exact ⟨h, by omega, rfl⟩

theorem storeWrite_firm {E : Env} {s s' : Store} {d : Bytes} {ok : Bool} (e : storeWrite E s d = .ok (s', ok)) (hb : Firm s) : Firm s' := by
  have hn := nextFile_firm (s := { s with faults := s.faults.tail }) hb
  have e : (if s.curSize + d.length > E.cfg.maxFile then
      if s.faults.head?.join = some .openFail then .ok ({ s with faults := s.faults.tail }, false)
      else if s.index + 1 ≥ E.cfg.maxFiles then .abort
      else
        let s2 := nextFile { s with faults := s.faults.tail }
        if s.faults.head?.join = some .syncFail then .ok (s2, false)
        else wrBytes { s2 with index := s2.index + 1, curSize := (s2.files.getD s2.index []).length, io := .sync s2.index :: s2.io } d s.faults.head?.join
    else wrBytes { s with faults := s.faults.tail } d s.faults.head?.join) = .ok (s', ok) := e
  generalize nextFile { s with faults := s.faults.tail } = s2 at hn e
  obtain ⟨hn, hlt, hi⟩ := hn
  split at e
  · split at e
    · cases e; exact hb
    · split at e
      · cases e
      · split at e
        · cases e; exact hn
        · refine firm_wr ⟨?_, ?_⟩ e
          · show s2.index + 1 - 1 < s2.files.length
            rw [hi]; exact hlt
          · intro f hf
            have hf : s2.files[s2.index + 1 - 1]? = some f := hf
            show (s2.files.getD s2.index []).length ≤ f.length
            rw [Nat.add_sub_cancel] at hf
            rw [List.getD_eq_getElem?_getD, hf]
            exact Nat.le_refl _
  · exact firm_wr (t := { s with faults := s.faults.tail }) hb e

theorem firm_rel (E : Env) : IoRel E (fun s s' => Firm s → Firm s') where
  trans h1 h2 h := h2 (h1 h)
  same h hb := ⟨by rw [h.2.2.1, h.1]; exact hb.1, hb.2.same h⟩
  write := storeWrite_firm
  sync := by
    intro s s' ok e hb
    unfold commitSync at e
    split at e
    · split at e <;> (cases e; exact hb)
    · cases e; exact hb

theorem openStore_firm {E : Env} {d d' : Dir} {rand : B32} {s : Store} (e : openStore E d rand = .ok (d', some s)) : Firm s := by
  unfold openStore at e
  split at e
  · cases e
  · obtain ⟨⟨st, lm, files, index⟩, e1, e⟩ := Res.bind_eq_ok.1 e
    obtain ⟨⟨s2, r⟩, e2, e⟩ := Res.bind_eq_ok.1 e
    have hs := storeReadRoot_sameIo e2
    have hf : Firm s2 := by
      refine (firm_rel E).same hs ⟨?_, ?_⟩
      · rcases recover_again (Nat.le_refl _) e1 with ⟨_, h1, h2⟩ | ⟨h, h1, _⟩
        · subst h1; subst h2; exact Nat.zero_lt_one
        · simp only [h, Nat.lt_irrefl, if_false]; omega
      · intro f hf
        simp only at hf ⊢
        rw [List.getD_eq_getElem?_getD, hf]
        exact Nat.le_refl _
    cases r with
    | none => cases e
    | some n => cases e; exact hf

theorem Used.firm {s : Sys} (h : Used E s) : Firm s.db.store := by
  induction h with
  | opened e =>
    unfold dbOpen at e
    obtain ⟨⟨d2, r⟩, e1, e⟩ := Res.bind_eq_ok.1 e
    cases r with
    | none => cases e
    | some st => cases e; exact openStore_firm e1
  | faults fs _ ih => exact ih
  | @call s s' op r _ e ih =>
    by_cases hop : ∃ rand, op = .reopen rand
    · obtain ⟨rand, rfl⟩ := hop
      simp only [step] at e
      obtain ⟨⟨d2, x⟩, e1, e⟩ := Res.bind_eq_ok.1 e
      unfold dbOpen at e1
      obtain ⟨⟨d3, y⟩, e2, e1⟩ := Res.bind_eq_ok.1 e1
      cases y with
      | none => cases e1; cases e
      | some st => cases e1; cases e; exact openStore_firm e2
    · exact step_rel (firm_rel E) (fun rand h => hop ⟨rand, h⟩) e ih

theorem Used.backed {s : Sys} (h : Used E s) : s.db.store.Backed := h.firm.2

theorem FromDir.used {s : Sys} (h : FromDir E s) : Used E s := by
  induction h with
  | opened _ _ _ e => exact .opened e
  | call _ e ih => exact .call ih e

theorem Reachable.backed (hE : EnvOk E) {s : Sys} (h : Reachable E s) : s.db.store.Backed := by
  obtain ⟨sp, hist, hs⟩ := h.sim hE
  obtain ⟨c0, cs, i, _⟩ := hs.db.inv.slab
  exact i.sok.backed

/-- A call with no effect but an error number. -/
theorem delivered_had {op : Op} (h1 : ∀ i k v, op ≠ .insert i k v) (h2 : ∀ k v, op ≠ .insert1 k v) (h3 : ∀ i k, op ≠ .get i k)
    (h4 : ∀ k h, op ≠ .get1 k h) (h5 : ∀ i k, op ≠ .prove i k) (h6 : ∀ k h, op ≠ .prove1 k h) (c : Caller) (r : Except Err Unit) :
    Delivered op (.ofUnit r) c (had c r).1 (had c r).2 := by
  cases r with
  | ok u =>
    cases u
    refine ⟨rfl, ?_⟩
    cases op <;> first | rfl | exact absurd rfl (h1 _ _ _) | exact absurd rfl (h2 _ _)
  | error e =>
    refine ⟨rfl, e.code, code_is e, ?_⟩
    cases op <;> first | rfl | exact absurd rfl (h3 _ _) | exact absurd rfl (h4 _ _) | exact absurd rfl (h5 _ _) | exact absurd rfl (h6 _ _)

/-- The call with the caller's variables goes as the one without. -/
def Follows (op : Op) (c : Caller) (x : Res (Sys × Ret)) (y : Res (Sys × Bool × Caller)) : Prop :=
  match x with
  | .ok (s', r) => ∃ ret c', y = .ok (s', ret, c') ∧ Delivered op r c ret c'
  | .err e => y = .err e
  | .abort => y = .abort
  | .ub => y = .ub

theorem cStep_follows {s : Sys} (hb : s.db.store.Backed) (op : Op) {c : Caller} (hc : c.Room) :
    Follows op c (step E s op) (cStep true E s op c) := by
  cases op with
  | root => exact ⟨true, _, rfl, rfl, rfl⟩
  | inject h =>
    simp only [step, cStep, cInject_eq]
    cases dbInject E s.db h with
    | ok y =>
      obtain ⟨db', r⟩ := y
      exact ⟨_, _, rfl, delivered_had (by simp) (by simp) (by simp) (by simp) (by simp) (by simp) c r⟩
    | err x => rfl
    | abort => rfl
    | ub => rfl
  | create id h =>
    simp only [step, cStep, cTxCreate_eq]
    cases txCreate E s.db h with
    | ok y =>
      obtain ⟨db', r⟩ := y
      cases r with
      | ok t => exact ⟨_, _, rfl, rfl, rfl⟩
      | error e => exact ⟨_, _, rfl, rfl, e.code, code_is e, rfl⟩
    | err x => rfl
    | abort => rfl
    | ub => rfl
  | destroy id =>
    simp only [step, cStep]
    cases s.tx id with
    | ok t =>
      simp only [Res.bind_ok]
      cases txDestroy t with
      | ok u => exact ⟨_, _, rfl, rfl, rfl⟩
      | err x => rfl
      | abort => rfl
      | ub => rfl
    | err x => rfl
    | abort => rfl
    | ub => rfl
  | clear id =>
    simp only [step, cStep]
    cases s.tx id with
    | ok t =>
      simp only [Res.bind_ok]
      cases txClear s.db t with
      | ok u => exact ⟨_, _, rfl, rfl, rfl⟩
      | err x => rfl
      | abort => rfl
      | ub => rfl
    | err x => rfl
    | abort => rfl
    | ub => rfl
  | txRoot id =>
    simp only [step, cStep]
    cases s.tx id with
    | ok t =>
      simp only [Res.bind_ok, cTxRoot_eq]
      cases txRoot E t with
      | ok y => obtain ⟨t', h⟩ := y; exact ⟨_, _, rfl, rfl, rfl⟩
      | err x => rfl
      | abort => rfl
      | ub => rfl
    | err x => rfl
    | abort => rfl
    | ub => rfl
  | txInject id h =>
    simp only [step, cStep]
    cases s.tx id with
    | ok t =>
      simp only [Res.bind_ok, cTxInject_eq]
      cases txInject E s.db t h with
      | ok y =>
        obtain ⟨db', t', r⟩ := y
        exact ⟨_, _, rfl, delivered_had (by simp) (by simp) (by simp) (by simp) (by simp) (by simp) c r⟩
      | err x => rfl
      | abort => rfl
      | ub => rfl
    | err x => rfl
    | abort => rfl
    | ub => rfl
  | get id k =>
    simp only [step, cStep]
    cases s.tx id with
    | ok t =>
      simp only [Res.bind_ok, cTxGet_eq hb t k hc]
      cases txGet s.db t k with
      | ok v => exact ⟨_, _, rfl, rfl, rfl⟩
      | err e => exact ⟨_, _, rfl, rfl, e.code, code_is e, rfl⟩
      | abort => rfl
      | ub => rfl
    | err x => rfl
    | abort => rfl
    | ub => rfl
  | has id k =>
    simp only [step, cStep]
    cases s.tx id with
    | ok t =>
      simp only [Res.bind_ok, cTxHas_eq hb t k hc]
      cases txHas s.db t k with
      | ok v => exact ⟨_, _, rfl, rfl, rfl⟩
      | err e => exact ⟨_, _, rfl, rfl, e.code, code_is e, rfl⟩
      | abort => rfl
      | ub => rfl
    | err x => rfl
    | abort => rfl
    | ub => rfl
  | insert id k v =>
    simp only [step, cStep]
    cases s.tx id with
    | ok t =>
      have h := cTxInsert_spec E s.db t k v c
      simp only [Res.bind_ok]
      cases e : txInsert E s.db t k v with
      | ok y =>
        obtain ⟨t', r⟩ := y
        rw [e] at h
        cases r with
        | ok u =>
          cases u
          obtain ⟨c', h, hc'⟩ := h
          rw [h]
          exact ⟨_, _, rfl, rfl, hc'.imp (fun x => x) fun x => ⟨_, code_is .ENOUPDATE, x.2⟩⟩
        | error x =>
          simp only at h
          rw [h]
          exact ⟨_, _, rfl, rfl, x.code, code_is x, rfl⟩
      | err x => rw [e] at h; simp only at h; rw [h]; rfl
      | abort => rw [e] at h; simp only at h; rw [h]; rfl
      | ub => rw [e] at h; simp only at h; rw [h]; rfl
    | err x => rfl
    | abort => rfl
    | ub => rfl
  | remove id k =>
    simp only [step, cStep]
    cases s.tx id with
    | ok t =>
      simp only [Res.bind_ok, cTxRemove_eq]
      cases txRemove s.db t k with
      | ok y =>
        obtain ⟨t', r⟩ := y
        exact ⟨_, _, rfl, delivered_had (by simp) (by simp) (by simp) (by simp) (by simp) (by simp) c r⟩
      | err x => rfl
      | abort => rfl
      | ub => rfl
    | err x => rfl
    | abort => rfl
    | ub => rfl
  | prove id k =>
    simp only [step, cStep]
    cases s.tx id with
    | ok t =>
      simp only [Res.bind_ok, cTxProve_eq]
      cases txProve E s.db t k with
      | ok y =>
        obtain ⟨t', r⟩ := y
        cases r with
        | ok b => exact ⟨_, _, rfl, rfl, rfl⟩
        | error e => exact ⟨_, _, rfl, rfl, e.code, code_is e, rfl⟩
      | err x => rfl
      | abort => rfl
      | ub => rfl
    | err x => rfl
    | abort => rfl
    | ub => rfl
  | commit id =>
    simp only [step, cStep]
    cases s.tx id with
    | ok t =>
      simp only [Res.bind_ok, cTxCommit_eq]
      cases txCommit E s.db t with
      | ok y =>
        obtain ⟨db', t', r⟩ := y
        exact ⟨_, _, rfl, delivered_had (by simp) (by simp) (by simp) (by simp) (by simp) (by simp) c r⟩
      | err x => rfl
      | abort => rfl
      | ub => rfl
    | err x => rfl
    | abort => rfl
    | ub => rfl
  | reopen rand =>
    simp only [step, cStep, cOpen_eq]
    unfold dbOpen
    cases openStore E s.db.dir rand with
    | ok y =>
      obtain ⟨d', r⟩ := y
      cases r with
      | none => rfl
      | some st => exact ⟨_, _, rfl, rfl, rfl⟩
    | err x => rfl
    | abort => rfl
    | ub => rfl
  | get1 k h =>
    simp only [step, cStep, cGet_eq hb k h hc]
    cases urkelGet E s.db k h with
    | ok y =>
      obtain ⟨db', r⟩ := y
      cases r with
      | ok v => exact ⟨_, _, rfl, rfl, rfl⟩
      | error e => exact ⟨_, _, rfl, rfl, e.code, code_is e, rfl⟩
    | err x => rfl
    | abort => rfl
    | ub => rfl
  | has1 k h =>
    simp only [step, cStep, cHas_eq hb k h hc]
    cases urkelHas E s.db k h with
    | ok y =>
      obtain ⟨db', r⟩ := y
      exact ⟨_, _, rfl, delivered_had (by simp) (by simp) (by simp) (by simp) (by simp) (by simp) c r⟩
    | err x => rfl
    | abort => rfl
    | ub => rfl
  | insert1 k v =>
    simp only [step, cStep]
    have h := cInsert_spec E s.db k v c
    cases e : urkelInsert E s.db k v with
    | ok y =>
      obtain ⟨db', r⟩ := y
      rw [e] at h
      cases r with
      | ok u =>
        cases u
        obtain ⟨c', h, hc'⟩ := h
        rw [h]
        exact ⟨_, _, rfl, rfl, hc'.imp (fun x => x) fun x => ⟨_, code_is .ENOUPDATE, x⟩⟩
      | error x =>
        simp only at h
        rw [h]
        exact ⟨_, _, rfl, rfl, x.code, code_is x, rfl⟩
    | err x => rw [e] at h; simp only at h; rw [h]; rfl
    | abort => rw [e] at h; simp only at h; rw [h]; rfl
    | ub => rw [e] at h; simp only at h; rw [h]; rfl
  | remove1 k =>
    simp only [step, cStep, cRemove_eq]
    cases urkelRemove E s.db k with
    | ok y =>
      obtain ⟨db', r⟩ := y
      exact ⟨_, _, rfl, delivered_had (by simp) (by simp) (by simp) (by simp) (by simp) (by simp) c r⟩
    | err x => rfl
    | abort => rfl
    | ub => rfl
  | prove1 k h =>
    simp only [step, cStep, cProve_eq]
    cases urkelProve E s.db k h with
    | ok y =>
      obtain ⟨db', r⟩ := y
      cases r with
      | ok b => exact ⟨_, _, rfl, rfl, rfl⟩
      | error e => exact ⟨_, _, rfl, rfl, e.code, code_is e, rfl⟩
    | err x => rfl
    | abort => rfl
    | ub => rfl

/-- C89. Whatever directory was opened, whatever was called before, whichever system
calls that write fail and whatever the caller's variables contain: each call returns 0 (or NULL) exactly if it failed, then
`urkel_errno` is the number of its error; on success the outputs are there and the rest of
the buffers is untouched. -/
theorem C89_calls {s s' : Sys} (h : Used E s) (op : Op) {c : Caller} (hc : c.Room) :
    (∀ r, step E s op = .ok (s', r) → ∃ ret c', cStep true E s op c = .ok (s', ret, c') ∧ Delivered op r c ret c') ∧
    (∀ ret c', cStep true E s op c = .ok (s', ret, c') → ∃ r, step E s op = .ok (s', r) ∧ Delivered op r c ret c') := by
  have hf := cStep_follows (E := E) h.backed op hc
  refine ⟨fun r e => ?_, fun ret c' e => ?_⟩
  · rw [e] at hf; exact hf
  · cases e' : step E s op with
    | ok y =>
      obtain ⟨s2, r⟩ := y
      rw [e'] at hf
      obtain ⟨ret2, c2, e2, hd⟩ := hf
      rw [e] at e2
      cases e2
      exact ⟨r, rfl, hd⟩
    | err x => rw [e'] at hf; rw [show cStep true E s op c = .err x from hf] at e; cases e
    | abort => rw [e'] at hf; rw [show cStep true E s op c = .abort from hf] at e; cases e
    | ub => rw [e'] at hf; rw [show cStep true E s op c = .ub from hf] at e; cases e

/-- The same for the programs of C50. -/
theorem C89_reachable (hE : EnvOk E) {s s' : Sys} (h : Reachable E s) {op : Op} {r : Ret} (e : step E s op = .ok (s', r))
    {c : Caller} (hc : c.Room) : ∃ ret c', cStep true E s op c = .ok (s', ret, c') ∧ Delivered op r c ret c' := by
  have hf := cStep_follows (E := E) (h.backed hE) op hc
  rw [e] at hf; exact hf

theorem got_snoc {op : Op} {r : Ret} {x : CCall} (h1 : op = x.op) (h2 : Delivered op r x.before x.ret x.after) :
    ∀ {tr : List (Op × Ret)} {cs : List CCall}, Got tr cs → Got (tr ++ [(op, r)]) (cs ++ [x])
  | [], [], _ => ⟨h1, h2, trivial⟩
  | (_, _) :: _, _ :: _, h => ⟨h.1, h.2.1, got_snoc h1 h2 h.2.2⟩
  | [], _ :: _, h => h.elim
  | (_, _) :: _, [], h => h.elim

theorem CExec.exec {cs : List CCall} {s : Sys} (hE : EnvOk E) (h : CExec E cs s) : ∃ tr, Exec E tr s ∧ Got tr cs := by
  induction h with
  | start h => exact ⟨[], .start h, trivial⟩
  | @call cs s s' x _ ha hc e ih =>
    obtain ⟨tr, he, hg⟩ := ih
    have hf := cStep_follows (E := E) (Reachable.backed hE ⟨tr, he⟩) x.op hc
    cases e' : step E s x.op with
    | ok y =>
      obtain ⟨s2, r⟩ := y
      rw [e'] at hf
      obtain ⟨ret2, c2, e2, hd⟩ := hf
      rw [e] at e2
      have e3 := Res.ok.inj e2
      simp only [Prod.mk.injEq] at e3
      obtain ⟨rfl, h1, h2⟩ := e3
      exact ⟨_, he.step ha e', got_snoc rfl (by rw [h1, h2]; exact hd) hg⟩
    | err y => rw [e'] at hf; rw [show cStep true E s x.op x.before = .err y from hf] at e; cases e
    | abort => rw [e'] at hf; rw [show cStep true E s x.op x.before = .abort from hf] at e; cases e
    | ub => rw [e'] at hf; rw [show cStep true E s x.op x.before = .ub from hf] at e; cases e

/-- C89. The whole of it: what a C program finds in its variables after each call, from
creating the database on, is what the list of maps (C50) says, and the next call will
return, too. -/
theorem C89_program (hE : EnvOk E) {cs : List CCall} {s : Sys} (h : CExec E cs s) :
    ∃ tr sp, Got tr cs ∧ SpecExec E.H SpecDb.new tr sp ∧
      ∀ op c, Allowed E s op → c.Room → ∃ s' ret c' r sp', cStep true E s op c = .ok (s', ret, c') ∧
        Delivered op r c ret c' ∧ SpecStep E.H sp op r sp' := by
  obtain ⟨tr, he, hg⟩ := h.exec hE
  obtain ⟨sp, h1, h2⟩ := C50_refinement hE he
  refine ⟨tr, sp, hg, h1, fun op c ha hc => ?_⟩
  obtain ⟨s', r, sp', e, hs⟩ := h2 op ha
  obtain ⟨ret, c', e', hd⟩ := C89_reachable hE ⟨tr, he⟩ e hc
  exact ⟨s', ret, c', r, sp', e', hd, hs⟩

/-- A caller's variables. -/
def callerOf (errno : Nat) (noise : Nat → Option Nat) : Caller :=
  ⟨errno, noise, 0, List.replicate 1023 5, 77, none, 3, List.replicate 32 6, List.replicate 32 6, true⟩

theorem callerOf_room (errno : Nat) (noise : Nat → Option Nat) : (callerOf errno noise).Room :=
  ⟨by show 1023 ≤ (List.replicate 1023 _).length; rw [List.length_replicate], by show 32 ≤ (List.replicate 32 _).length; rw [List.length_replicate]⟩

/-- Inserting a pair that is there already: success, and the error number says ENOUPDATE. -/
example (k : B32) (v : Bytes) (hv : v.length ≤ 1023) : Reachable toyEnv (sys2 k v) ∧ (callerOf 4 fun _ => none).Room ∧
    step toyEnv (sys2 k v) (.get 0 k) = .ok (sys2 k v, .bytes v) :=
  ⟨(sys2_logged k v hv).reachable, callerOf_room _ _, by
    have h := sys2_shows k v hv k
    simp only [step, Sys.tx, sys2_tx, sys2_db, Res.bind_ok, h]
    simp [Contents.read, Contents.ofList, Contents.set, catchErr, Ret.ofBytes]⟩

/-- A program that creates a transaction and inserts a pair. -/
example (v : Bytes) (hv : v.length ≤ 1023) : ∃ cs, CExec toyEnv cs (sys2 (keyOf 1) v) ∧ cs.length = 2 := by
  obtain ⟨r1, c1, e1, _⟩ := C89_reachable toyEnv_ok ⟨_, .start sys0_started⟩ sys1_step (callerOf_room 4 fun _ => none)
  have hr1 : Reachable toyEnv sys1 := Reachable.next ⟨_, .start sys0_started⟩ (op := .create 0 none) trivial sys1_step
  obtain ⟨r2, c2, e2, _⟩ := C89_reachable toyEnv_ok hr1 (sys2_step (keyOf 1) v hv) (callerOf_room 5 fun _ => none)
  have x1 : CExec toyEnv [⟨.create 0 none, callerOf 4 fun _ => none, r1, c1⟩] sys1 :=
    .call (cs := []) (x := ⟨.create 0 none, callerOf 4 fun _ => none, r1, c1⟩) (.start sys0_started) trivial (callerOf_room _ _) e1
  exact ⟨_, .call (x := ⟨.insert 0 (keyOf 1) v, callerOf 5 fun _ => none, r2, c2⟩) x1
    (by simp only [Allowed]; exact fun h => nomatch h) (callerOf_room _ _) e2, rfl⟩

/-- A disk that is full when a transaction is committed. -/
def fullDisk : Sys := ⟨(sys2 (keyOf 1) [7]).db.under [some (.writeFail 5)], (sys2 (keyOf 1) [7]).txs⟩

theorem fullDisk_used : Used toyEnv fullDisk :=
  .faults _ (FromDir.used ((sys2_logged (keyOf 1) [7] (by decide)).reachable.fromDir (by decide)))

/-- The commit returns 0, `urkel_errno` is 11 (EBADWRITE), the rest is untouched. -/
def fullDiskCheck : Bool :=
  match cStep true toyEnv fullDisk (.commit 0) (callerOf 4 fun _ => none) with
  | .ok (_, ret, c) => ret == false && c.errno == 11 && c.size == 77 && c.proofLen == 3
  | _ => false

example : fullDiskCheck = true := by decide +kernel

/-- C89. `urkel_open` returns NULL exactly if it failed, and `urkel_errno` is then the
number of EBADOPEN; nothing else of the caller changes. -/
theorem C89_open (E : Env) (d : Dir) (rand : B32) (c : Caller) :
    (∀ d' db, dbOpen E d rand = .ok (d', .ok db) → cOpen true E d rand c = .ok (d', some db, c)) ∧
    (∀ d' e, dbOpen E d rand = .ok (d', .error e) → e = .EBADOPEN ∧ ∃ n, IsCode n e ∧ cOpen true E d rand c = .ok (d', none, { c with errno := n })) := by
  refine ⟨fun d' db e => ?_, fun d' e h => ?_⟩
  · rw [cOpen_eq, e]; rfl
  · refine ⟨?_, e.code, code_is e, ?_⟩
    · unfold dbOpen at h
      cases e2 : openStore E d rand with
      | ok y => rw [e2] at h; obtain ⟨d2, r⟩ := y; cases r <;> cases h; rfl
      | err x => rw [e2] at h; cases h
      | abort => rw [e2] at h; cases h
      | ub => rw [e2] at h; cases h
    · rw [cOpen_eq, h]; rfl

example : ∃ d' db, dbOpen toyEnv Dir.fresh B32.zero = .ok (d', .ok db) := ⟨_, _, open_db0⟩
example : ∃ d', dbOpen toyEnv ⟨some [1, 2, 3], []⟩ B32.zero = .ok (d', .error .EBADOPEN) := ⟨_, rfl⟩

/-- C89. `urkel_verify`: with NULL for the root, and for every other root and every byte
string, `*exists`, the value, its size, the return value and `urkel_errno` are those of the
verdict; `urkel_errno` is 0 after a success. -/
theorem C89_verify (H : HashFn) (raw : Bytes) (k : B32) {c : Caller} (hc : c.Room) :
    (∃ n, IsCode n .EINVAL ∧ cVerify true H raw k none c = .ok (false, { c with found := false, size := 0, errno := n })) ∧
    ∀ root, ∃ out, urkelVerify H raw k root = .ok out ∧
      (out.ret = .ok () → cVerify true H raw k (some root) c = .ok (true,
        { c with errno := 0, found := out.exists_, value := out.value ++ c.value.drop out.value.length, size := out.value.length })) ∧
      (∀ e, out.ret = .error e → ∃ n, IsCode n e ∧
        cVerify true H raw k (some root) c = .ok (false, { c with errno := n, found := false, size := 0 })) := by
  refine ⟨⟨7, code_is .EINVAL, rfl⟩, fun root => ?_⟩
  obtain ⟨out, e, hlen, _, _⟩ := C13_verify_total H raw k root
  refine ⟨out, e, ?_⟩
  unfold urkelVerify at e
  unfold cVerify
  obtain ⟨r, e1, e⟩ := Res.bind_eq_ok.1 e
  simp only [e1, Res.bind_ok, libc_tls]
  cases r with
  | none =>
    cases e
    refine ⟨(fun h => nomatch h), ?_⟩
    intro e h
    cases h
    exact ⟨7, code_is .EINVAL, rfl⟩
  | some p =>
    dsimp only at e ⊢
    cases hv : proofVerify H p k root with
    | ok u =>
      cases u
      rw [hv] at e
      dsimp only at e
      cases hb : p.body with
      | «exists» v =>
        rw [hb] at e
        cases e
        refine ⟨fun _ => ?_, fun e h => nomatch h⟩
        have h' : v.length ≤ c.value.length := Nat.le_trans hlen hc.1
        simp only [catchErr, Res.bind_ok]
        by_cases h0 : v.length > 0
        · rw [if_pos h0, bufCopy_front h']; rfl
        · have : v = [] := List.length_eq_zero_iff.1 (by omega)
          subst this
          rfl
      | deadend => rw [hb] at e; cases e; exact ⟨fun _ => rfl, fun e h => nomatch h⟩
      | short _ _ _ => rw [hb] at e; cases e; exact ⟨fun _ => rfl, fun e h => nomatch h⟩
      | collision _ _ => rw [hb] at e; cases e; exact ⟨fun _ => rfl, fun e h => nomatch h⟩
    | err x =>
      rw [hv] at e
      cases e
      refine ⟨(fun h => nomatch h), fun e h => ?_⟩
      cases h
      refine ⟨x.code, code_is x, ?_⟩
      simp only [catchErr, Res.bind_ok, Res.pure_eq, beq_eq_false_iff_ne.2 (code_ne x)]
    | abort => rw [hv] at e; cases e
    | ub => rw [hv] at e; cases e

/-! ### Iterators -/

theorem cIterNext_pair {db : Db} (hb : db.store.Backed) (want : Bool) {it it' : Iter} {k : B32} {v : Bytes} {c : Caller} (hc : c.Room)
    (e : iterNext db it = .ok (it', .ok (k, v))) :
    cIterNext true db want it c = .ok (it', true, if want then (c.keyed k).gets v else c.keyed k) := by
  have h := cNextLoop_spec hb want iterFuel it hc
  unfold iterNext at e
  rw [e] at h
  unfold cIterNext
  rw [libc_tls, h]; rfl

theorem cIterNext_end {db : Db} (hb : db.store.Backed) (want : Bool) {it it' : Iter} {c : Caller} (hc : c.Room)
    (e : iterNext db it = .ok (it', .error .EITEREND)) : cIterNext true db want it c = .ok (it', false, setErr .EITEREND c) := by
  have h := cNextLoop_spec hb want iterFuel it hc
  unfold iterNext at e
  rw [e] at h
  unfold cIterNext
  rcases h with h | ⟨h, _⟩
  · rw [libc_tls, h]; rfl
  · cases h

theorem keyed_room {c : Caller} (hc : c.Room) (k : B32) : (c.keyed k).Room := ⟨hc.1, by
  show 32 ≤ (k.bytes ++ c.key.drop 32).length
  rw [List.length_append, k.len]; omega⟩

theorem gets_room {c : Caller} (hc : c.Room) (v : Bytes) : (c.gets v).Room := ⟨by
  have := hc.1
  show 1023 ≤ (v ++ c.value.drop v.length).length
  rw [List.length_append, List.length_drop]; omega, hc.2⟩

theorem keyed_key (c : Caller) (k : B32) : (c.keyed k).key.take 32 = k.bytes := by
  show (k.bytes ++ c.key.drop 32).take 32 = _
  rw [List.take_append_of_le_length (by rw [k.len]), List.take_of_length_le (by rw [k.len])]

/-- C89. One call of `urkel_iter_next`, on any database, with (`want`) or without room for
the value: the pair arrives and nothing else changes; at the end only `urkel_errno`
changes; if something cannot be read, either the call fails with ECORRUPTION and leaves
value and size alone, or only the value is damaged and was not asked for. -/
theorem C89_next {db : Db} (hb : db.store.Backed) (want : Bool) {it it' : Iter} {c : Caller} (hc : c.Room) :
    (∀ k v, iterNext db it = .ok (it', .ok (k, v)) → cIterNext true db want it c = .ok (it', true,
      if want then { c with key := k.bytes ++ c.key.drop 32, value := v ++ c.value.drop v.length, size := v.length }
      else { c with key := k.bytes ++ c.key.drop 32 })) ∧
    (iterNext db it = .ok (it', .error .EITEREND) → ∃ n, IsCode n .EITEREND ∧
      cIterNext true db want it c = .ok (it', false, { c with errno := n })) ∧
    (iterNext db it = .ok (it', .error .ECORRUPTION) →
      (∃ n key, IsCode n .ECORRUPTION ∧ cIterNext true db want it c = .ok (it', false, { c with errno := n, key := key })) ∨
      (want = false ∧ ∃ k : B32, cIterNext true db want it c = .ok (it', true, { c with key := k.bytes ++ c.key.drop 32 }))) := by
  refine ⟨fun k v e => ?_, fun e => ?_, fun e => ?_⟩
  · rw [cIterNext_pair hb want hc e]; cases want <;> rfl
  · exact ⟨_, code_is .EITEREND, cIterNext_end hb want hc e⟩
  · have h := cNextLoop_spec hb want iterFuel it hc
    unfold iterNext at e
    rw [e] at h
    unfold cIterNext
    rcases h with h | ⟨_, k, h⟩
    · exact .inl ⟨_, c.key, code_is .ECORRUPTION, by rw [libc_tls, h]; rfl⟩
    · cases want with
      | true => exact .inl ⟨_, _, code_is .ECORRUPTION, by rw [libc_tls, h]; rfl⟩
      | false => exact .inr ⟨rfl, k, by rw [libc_tls, h]; rfl⟩

theorem cIterCalls_of (want : Bool) : ∀ (dbs : List Db) (it : Iter) (l : List (B32 × Bytes)) {c : Caller}, (∀ db ∈ dbs, db.store.Backed) → c.Room →
    iterCalls it dbs = .ok (listing l dbs.length) →
    ∃ outs, cIterCalls true want it dbs c = .ok outs ∧ outs.length = dbs.length ∧ ∀ (i : Nat) o, outs[i]? = some o → Arrived want l[i]? o
  | [], _, _, _, _, _, _ => ⟨[], rfl, rfl, fun i o h => by simp at h⟩
  | db :: dbs, it, l, c, hb, hc, e => by
    unfold iterCalls at e
    obtain ⟨⟨it', r⟩, e1, e2⟩ := Res.bind_eq_ok.1 e
    obtain ⟨rs, e3, e4⟩ := Res.bind_eq_ok.1 e2
    have e4 := Res.ok.inj e4
    have hbd := hb db (by simp)
    have hbs : ∀ d ∈ dbs, d.store.Backed := fun d hd => hb d (by simp [hd])
    cases l with
    | nil =>
      rw [List.length_cons, listing_nil] at e4
      obtain ⟨e5, e6⟩ := List.cons.inj e4
      rw [e5] at e1
      rw [e6] at e3
      obtain ⟨outs, h1, h2, h3⟩ := cIterCalls_of want dbs it' [] (c := setErr .EITEREND c) hbs hc e3
      refine ⟨(false, setErr .EITEREND c) :: outs, ?_, by simp [h2], ?_⟩
      · unfold cIterCalls
        rw [cIterNext_end hbd want hc e1]
        simp only [Res.bind_ok, h1]; rfl
      · intro i o ho
        cases i with
        | zero => simp at ho; subst ho; exact ⟨rfl, code_is .EITEREND⟩
        | succ i => simpa using h3 i o (by simpa using ho)
    | cons p l =>
      obtain ⟨k, v⟩ := p
      rw [List.length_cons, listing_cons] at e4
      obtain ⟨e5, e6⟩ := List.cons.inj e4
      rw [e5] at e1
      rw [e6] at e3
      have hc' : (if want then (c.keyed k).gets v else c.keyed k).Room := by
        cases want
        · exact keyed_room hc k
        · exact gets_room (keyed_room hc k) v
      obtain ⟨outs, h1, h2, h3⟩ := cIterCalls_of want dbs it' l hbs hc' e3
      refine ⟨(true, if want then (c.keyed k).gets v else c.keyed k) :: outs, ?_, by simp [h2], ?_⟩
      · unfold cIterCalls
        rw [cIterNext_pair hbd want hc e1]
        simp only [Res.bind_ok, h1]; rfl
      · intro i o ho
        cases i with
        | zero =>
          simp at ho
          subst ho
          refine ⟨rfl, ?_, ?_⟩
          · cases want <;> exact keyed_key c k
          · intro hw
            subst hw
            refine ⟨rfl, ?_⟩
            show (v ++ _).take v.length = v
            simp
        | succ i => simpa using h3 i o (by simpa using ho)

theorem Run.reachable {s s' : Sys} {ops : List Op} (h : Run E s ops s') (hr : Reachable E s) : Reachable E s' := by
  induction h with
  | nil => exact hr
  | cons ha he _ ih => exact ih (hr.next ha he)

theorem Amid.reachable {id : Nat} {s : Sys} {ss : List Sys} (h : Amid E id s ss) (hr : Reachable E s) : ∀ x ∈ ss, Reachable E x := by
  induction h with
  | nil => intro x hx; simp at hx
  | cons hrun _ _ ih =>
    have h1 := hrun.reachable hr
    intro x hx
    rcases List.mem_cons.1 hx with rfl | hx
    · exact h1
    · exact ih h1 x hx

/-- C89. A caller that iterates, asking for values or only for keys, finds after the `i`th
call the `i`th key (and value) in its buffers and 1 as the return value, and after the last
pair 0 and EITEREND, whatever other calls are made in between. -/
theorem C89_iteration_partial (hE : EnvOk E) {s : Sys} (hr : Reachable E s) {id : Nat} {tx : Tx}
    (hid : s.txs id = some tx) {c : Contents} (hc : Shows s.db tx c) (hsh : Shallow 127 c) (want : Bool) :
    ∃ it l, iterCreate tx = .ok it ∧ Lists l c ∧ ∀ ss, Amid E id s ss → ∀ cl : Caller, cl.Room →
      ∃ outs, cIterCalls true want it (ss.map (·.db)) cl = .ok outs ∧ outs.length = ss.length ∧
        ∀ (i : Nat) o, outs[i]? = some o → Arrived want l[i]? o := by
  obtain ⟨it, l, e, hl, h⟩ := C30_iteration_partial hE hr hid hc hsh
  refine ⟨it, l, e, hl, fun ss ha cl hcl => ?_⟩
  have hb : ∀ db ∈ ss.map (·.db), db.store.Backed := by
    intro db hdb
    obtain ⟨x, hx, rfl⟩ := List.mem_map.1 hdb
    exact (ha.reachable hr x hx).backed hE
  obtain ⟨outs, h1, h2, h3⟩ := cIterCalls_of want (ss.map (·.db)) it l hb hcl (by rw [List.length_map]; exact h ss ha)
  exact ⟨outs, h1, by rw [h2, List.length_map], h3⟩

/-! ### Builds without thread-local storage -/

/-- C89 is false in builds without URKEL_TLS (tree.c:65-72), where `urkel_errno` is the
`errno` of the C library: if the library leaves anything else in it, inserting a pair that
is already there is reported as a failure (C08 says it succeeds), and the caller does not
learn the number of an error. -/
theorem C89_no_tls_false (k : B32) (v : Bytes) (hv : v.length ≤ 1023) (k' : B32) (hk : k' ≠ k) :
    Reachable toyEnv (sys2 k v) ∧ txGet (sys2 k v).db (leafTx k v) k = .ok v ∧
    (∃ s', step toyEnv (sys2 k v) (.insert 0 k v) = .ok (s', .unit)) ∧
    (∃ s' c', cStep false toyEnv (sys2 k v) (.insert 0 k v) (callerOf 0 fun _ => some 12) = .ok (s', false, c') ∧ c'.errno = 12) ∧
    step toyEnv (sys2 k v) (.has 0 k') = .ok (sys2 k v, .fail .ENOTFOUND) ∧
    (∃ s' c', cStep false toyEnv (sys2 k v) (.has 0 k') (callerOf 0 fun _ => some 12) = .ok (s', false, c') ∧ c'.errno = 12) := by
  have hv' : ¬ v.length > valueSize := by simp only [valueSize]; omega
  have hve : valueEquals (some v) v = true := by simp [valueEquals]
  have ht : (sys2 k v).tx 0 = .ok (leafTx k v) := rfl
  have hn : (leafTx k v).node = .ok (createLeaf toyEnv.H k v) := rfl
  have i1 : ∀ f, treeInsert toyEnv db0.store k v (f + 1) (createLeaf toyEnv.H k v) 0 = .err .ENOUPDATE := by
    intro f; simp only [createLeaf, treeInsert, if_true, hve]
  have i2 : ∀ f c, cTreeInsert false toyEnv db0.store k v (f + 1) (createLeaf toyEnv.H k v) 0 c = .ok (none, setErr .ENOUPDATE c) := by
    intro f c; simp only [createLeaf, cTreeInsert, if_true, hve]
  have g1 : ∀ f, treeGet db0.store k' false (f + 1) (createLeaf toyEnv.H k v) 0 = .err .ENOTFOUND := by
    intro f; simp only [createLeaf, treeGet, if_pos (Ne.symm hk)]
  have g2 : ∀ f c, cTreeGet false db0.store k' false (f + 1) (createLeaf toyEnv.H k v) 0 c = .ok (false, setErr .ENOTFOUND c) := by
    intro f c; simp only [createLeaf, cTreeGet, if_pos (Ne.symm hk)]
  refine ⟨(sys2_logged k v hv).reachable, ?_, ⟨(sys2 k v).setTx 0 (some (leafTx k v)), ?_⟩,
    ⟨(sys2 k v).setTx 0 (some (leafTx k v)), { callerOf 0 (fun _ => some 12) with errno := 12, tick := 2 }, ?_, rfl⟩, ?_,
    ⟨sys2 k v, { callerOf 0 (fun _ => some 12) with errno := 12, tick := 2 }, ?_, rfl⟩⟩
  · have h := sys2_shows k v hv k
    rw [sys2_db, h]; simp [Contents.read, Contents.ofList, Contents.set]
  · simp only [step, ht, Res.bind_ok, txInsert, if_neg hv', hn, sys2_db]
    rw [show treeFuel = 599 + 1 from rfl, i1]
    rfl
  · simp only [cStep, ht, Res.bind_ok, cTxInsert, if_neg hv', hn, sys2_db]
    rw [show treeFuel = 599 + 1 from rfl, i2]
    rfl
  · simp only [step, ht, Res.bind_ok, txHas, hn, sys2_db]
    rw [show treeFuel = 599 + 1 from rfl, g1]
    rfl
  · simp only [cStep, ht, Res.bind_ok, cTxHas, hn, sys2_db]
    rw [show treeFuel = 599 + 1 from rfl, g2]
    rfl

example (v : Bytes) (hv : v.length ≤ 1023) := C89_no_tls_false (keyOf 1) v hv (keyOf 2) (by decide)

end Urkel
