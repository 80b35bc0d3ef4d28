import Verif.Lemmas.Resource
import Mathlib.Tactic.ByContra
/-
The functions of the store release exactly what they acquire.
-/
namespace Urkel

/-- What an open store at `b` holds, except its own block. -/
def keep (b : Nat) (s : RStore) : SProp := lpure (s.blk = b) ∗∗ ownStore s

theorem keep_of {b : Nat} {s : RStore} (h : s.blk = b) : keep b s = ownStore s := lpure_true h _

theorem RT.keep {α : Type} {b : Nat} {s : RStore} {R : SProp} {Q : α → SProp} {m : RM α} (h : s.blk = b → RT (ownStore s ∗∗ R) m Q) :
    RT (Urkel.keep b s ∗∗ R) m Q := by
  unfold Urkel.keep
  rw [sep_assoc]
  exact RT.pure_pre h

theorem RT.keep0 {α : Type} {b : Nat} {s : RStore} {Q : α → SProp} {m : RM α} (h : s.blk = b → RT (ownStore s) m Q) : RT (Urkel.keep b s) m Q :=
  RT.pure_pre h

section
variable {β : Type} {A : Alloc} {b : Nat}

/-- All that a store holds except its files. -/
def ownRest (s : RStore) : SProp :=
  pts s.lock .fd ∗∗ ownOpt .raw s.data ∗∗ ownOpt .raw s.offsets ∗∗ ownOpt .raw s.table ∗∗ pts s.fmLock .raw ∗∗
    pts s.map .raw ∗∗ ownArrays s.arrays ∗∗ ownBlocks s.nodes

theorem ownStore_items (s : RStore) : ownStore s = ownItems s.items ∗∗ ownRest s := by unfold ownStore ownRest; ac_rfl

theorem RStore.file_set {s : RStore} {i j : Nat} {o : Option RFile} (h : s.items.getD j none = none) (ho : i = j → o = none) :
    (s.items.set i o).getD j none = none := by
  rw [List.getD_eq_getElem?_getD, List.getElem?_set]
  split
  · next e => rw [ho e]; split <;> rfl
  · rw [← List.getD_eq_getElem?_getD]; exact h

theorem rCloseFile_spec (s : RStore) (i : Nat) :
    RT (keep b s) (rCloseFile s i) (fun x => lpure (∀ j, s.file j = none → x.file j = none) ∗∗ keep b x) := by
  refine RT.keep0 fun hb => ?_
  unfold rCloseFile
  refine RT.use (a := s.fmLock) (c := .raw) (R := ownItems s.items ∗∗ pts s.lock .fd ∗∗ ownOpt .raw s.data ∗∗ ownOpt .raw s.offsets ∗∗ ownOpt .raw s.table ∗∗
    pts s.map .raw ∗∗ ownArrays s.arrays ∗∗ ownBlocks s.nodes) (by unfold ownStore; ac_rfl) ?_
  cases hf : s.file i with
  | none => exact RT.ret fun m hm => by rw [lpure_true fun _ h => h, keep_of hb]; exact hm
  | some f =>
    refine RT.rFileClose (R := ownItems (s.items.set i none) ∗∗ ownRest s) (by rw [ownStore_items, ownItems_take hf]; ac_rfl) ?_
    refine RT.ret fun m hm => ?_
    refine lpure_sep.2 ⟨fun j hj => RStore.file_set (s := s) hj fun _ => rfl, ?_⟩
    rw [keep_of (by exact hb), ownStore_items]
    exact hm

theorem rEvict_spec : ∀ (n : Nat) (s : RStore), RT (keep b s) (rEvict n s) (fun x => lpure (∀ j, s.file j = none → x.file j = none) ∗∗ keep b x) := by
  intro n
  induction n with
  | zero => intro s; exact RT.ret fun m hm => by rw [lpure_true fun _ h => h]; exact hm
  | succ n ih =>
    intro s
    unfold rEvict
    split
    · refine RT.answer fun k => ?_
      cases s.victims[k % s.victims.length]? with
      | none => exact RT.ret fun m hm => by rw [lpure_true fun _ h => h]; exact hm
      | some i =>
        refine RT.call (rCloseFile_spec s i) fun s' => ?_
        refine RT.pure_pre fun h1 => ?_
        refine RT.post (ih s') fun s'' m hm => ?_
        obtain ⟨h2, hm⟩ := lpure_sep.1 hm
        exact lpure_sep.2 ⟨fun j hj => h2 j (h1 j hj), hm⟩
    · exact RT.ret fun m hm => by rw [lpure_true fun _ h => h]; exact hm

theorem rEvictIf_spec (ro : Bool) (s : RStore) : RT (keep b s) (rEvictIf ro s) (fun x => lpure (∀ j, s.file j = none → x.file j = none) ∗∗ keep b x) := by
  cases ro with
  | true => exact RT.ret fun m hm => by rw [lpure_true fun _ h => h]; exact hm
  | false => exact rEvict_spec _ s

theorem rInsert_spec (s : RStore) (i : Nat) (f : RFile) (hn : s.file i = none) :
    RT (keep b s ∗∗ ownFile f) (rInsert A s i f) (fun x => lpure (x.file i = some f) ∗∗ keep b x) := by
  refine RT.keep fun hb => ?_
  unfold rInsert
  refine RT.use (a := s.fmLock) (c := .raw) (R := (ownItems s.items ∗∗ pts s.lock .fd ∗∗ ownOpt .raw s.data ∗∗ ownOpt .raw s.offsets ∗∗ ownOpt .raw s.table ∗∗
    pts s.map .raw ∗∗ ownArrays s.arrays ∗∗ ownBlocks s.nodes) ∗∗ ownFile f) (by unfold ownStore; ac_rfl) ?_
  split
  · next hl =>
    refine RT.releaseOpt (R := (ownItems s.items ∗∗ pts s.lock .fd ∗∗ ownOpt .raw s.data ∗∗ ownOpt .raw s.offsets ∗∗ pts s.fmLock .raw ∗∗
      pts s.map .raw ∗∗ ownArrays s.arrays ∗∗ ownBlocks s.nodes) ∗∗ ownFile f) (by unfold ownStore; ac_rfl) ?_
    refine RT.acquire fun t => ?_
    refine RT.ret fun m hm => ?_
    have hlen : i < (s.items ++ List.replicate (i + 1 - s.items.length) none).length := by simp; omega
    have hnone : (s.items ++ List.replicate (i + 1 - s.items.length) none).getD i none = none := by
      rw [List.getD_eq_getElem?_getD, List.getElem?_append_right hl, List.getElem?_replicate]
      split <;> rfl
    rw [lpure_true, keep_of (by exact hb), ownStore_items]
    · show (ownItems ((s.items ++ List.replicate (i + 1 - s.items.length) none).set i (some f)) ∗∗ ownRest { s with table := some t }) m
      rw [ownItems_fresh f hlen hnone, ownItems_append, ownItems_none, sep_emp]
      unfold ownRest
      show ((ownFile f ∗∗ ownItems s.items) ∗∗ pts s.lock .fd ∗∗ ownOpt .raw s.data ∗∗ ownOpt .raw s.offsets ∗∗ pts t .raw ∗∗ pts s.fmLock .raw ∗∗
        pts s.map .raw ∗∗ ownArrays s.arrays ∗∗ ownBlocks s.nodes) m
      perm hm
    · show ((s.items ++ List.replicate (i + 1 - s.items.length) none).set i (some f)).getD i none = some f
      rw [List.getD_eq_getElem?_getD, List.getElem?_set_self hlen]; rfl
  · next hl =>
    rw [hn]
    refine RT.ret fun m hm => ?_
    rw [lpure_true, keep_of (by exact hb), ownStore_items]
    · show (ownItems (s.items.set i (some f)) ∗∗ ownRest s) m
      rw [ownItems_fresh f (by omega) hn]
      rw [ownStore_items] at hm
      perm hm
    · show (s.items.set i (some f)).getD i none = some f
      rw [List.getD_eq_getElem?_getD, List.getElem?_set_self (by omega)]; rfl

theorem rOpenFile_spec (s : RStore) (i : Nat) (ro : Bool) :
    RT (keep b s) (rOpenFile A s i ro) (fun x => lpure (∀ f, x.2 = some f → x.1.file i = some f) ∗∗ keep b x.1) := by
  unfold rOpenFile
  split
  · exact RT.ret fun m hm => by rw [lpure_true fun _ h => (nomatch h)]; exact hm
  · cases hf : s.file i with
    | some f => exact RT.ret fun m hm => by rw [lpure_true fun g h => by cases h; exact hf]; exact hm
    | none =>
      refine RT.rFileOpen (RT.ret fun m hm => by rw [lpure_true fun _ h => (nomatch h)]; exact hm) fun f => ?_
      refine RT.bind (rEvictIf_spec ro s) (R := ownFile f) (sep_comm _ _) fun s' => ?_
      rw [sep_assoc]
      refine RT.pure_pre fun h1 => ?_
      refine RT.call (rInsert_spec s' i f (h1 i hf)) fun s'' => ?_
      refine RT.pure_pre fun h2 => ?_
      exact RT.ret fun m hm => by rw [lpure_true fun g h => by cases h; exact h2]; exact hm

theorem rRead_spec (s : RStore) (i : Nat) : RT (keep b s) (rRead A s i) (fun x => keep b x.1) := by
  unfold rRead
  refine RT.call (rOpenFile_spec s i true) fun x => ?_
  obtain ⟨s', o⟩ := x
  refine RT.pure_pre fun h => ?_
  cases o with
  | none => exact RT.ret fun m hm => hm
  | some f =>
    refine RT.keep0 fun hb => ?_
    refine RT.rFilePread (f := f) (R := ownItems (s'.items.set i none) ∗∗ ownRest s') (by rw [ownStore_items, ownItems_take (h f rfl)]; ac_rfl) fun ok => ?_
    exact RT.ret fun m hm => by rw [keep_of hb]; exact hm

theorem rAppend_spec (s : RStore) : RT (keep b s) (rAppend A s) (fun x => keep b x.1) := by
  refine RT.keep0 fun hb => ?_
  unfold rAppend
  cases hf : s.file s.index with
  | none => exact RT.ret fun m hm => by rw [keep_of hb]; exact hm
  | some f =>
    refine RT.bind rFileWrite_spec (R := ownItems (s.items.set s.index none) ∗∗ ownRest s) (by rw [ownStore_items, ownItems_take hf]; ac_rfl) fun x => ?_
    obtain ⟨ok, g⟩ := x
    refine RT.ret fun m hm => ?_
    rw [keep_of (by exact hb), ownStore_items]
    show (ownItems (s.items.set s.index (some g)) ∗∗ ownRest s) m
    rw [ownItems_put hf]
    perm hm

theorem RT.current {s : RStore} {Q : β → SProp} {k : Bool → RM β} (h : ∀ ok, RT (Urkel.keep b s) (k ok) Q) :
    RT (Urkel.keep b s) (Urkel.rCallOpt ((s.file s.index).bind RFile.fd) >>= k) Q := by
  refine RT.keep0 fun hb => ?_
  have h' : ∀ ok, RT (ownStore s) (k ok) Q := fun ok => keep_of hb ▸ h ok
  cases hf : s.file s.index with
  | none => exact h' false
  | some f =>
    refine RT.rCallOpt (R := pts f.blk .raw ∗∗ ownOpt .mapping f.base ∗∗ ownItems (s.items.set s.index none) ∗∗ ownRest s) ?_ h'
    rw [ownStore_items, ownItems_take hf]
    show (ownFile f ∗∗ _) ∗∗ _ = ownOpt .fd f.fd ∗∗ _
    unfold ownFile; ac_rfl

theorem rWrite_spec (s : RStore) : RT (keep b s) (rWrite A s) (fun x => keep b x.1) := by
  unfold rWrite
  refine RT.ask fun full => ?_
  cases full with
  | false => exact rAppend_spec s
  | true =>
    refine RT.call (rOpenFile_spec s _ false) fun x => ?_
    obtain ⟨s', o⟩ := x
    refine RT.pure_pre fun _ => ?_
    cases o with
    | none => exact RT.ret fun m hm => hm
    | some f =>
      refine RT.current fun ok => ?_
      cases ok with
      | false => exact RT.ret fun m hm => hm
      | true =>
        refine RT.call (rCloseFile_spec s' _) fun s'' => ?_
        refine RT.pure_pre fun _ => ?_
        exact rAppend_spec { s'' with index := s'.index + 1 }

theorem rSlabOffsets_spec (s : RStore) : RT (keep b s) (rSlabOffsets A s) (keep b) := by
  refine RT.keep0 fun hb => ?_
  have e : ownStore s = ownOpt .raw s.offsets ∗∗ (pts s.lock .fd ∗∗ ownOpt .raw s.data ∗∗ ownOpt .raw s.table ∗∗ ownItems s.items ∗∗ pts s.fmLock .raw ∗∗
    pts s.map .raw ∗∗ ownArrays s.arrays ∗∗ ownBlocks s.nodes) := by unfold ownStore; ac_rfl
  have e' : ∀ o, ownStore { s with offsets := some o } = pts o .raw ∗∗ (pts s.lock .fd ∗∗ ownOpt .raw s.data ∗∗ ownOpt .raw s.table ∗∗ ownItems s.items ∗∗ pts s.fmLock .raw ∗∗
    pts s.map .raw ∗∗ ownArrays s.arrays ∗∗ ownBlocks s.nodes) := by
    intro o
    show pts s.lock .fd ∗∗ ownOpt .raw s.data ∗∗ pts o .raw ∗∗ ownOpt .raw s.table ∗∗ ownItems s.items ∗∗ pts s.fmLock .raw ∗∗
      pts s.map .raw ∗∗ ownArrays s.arrays ∗∗ ownBlocks s.nodes = _
    ac_rfl
  unfold rSlabOffsets
  cases ho : s.offsets with
  | none =>
    refine RT.acquire fun o => RT.ret fun m hm => ?_
    rw [keep_of (by exact hb), e']
    rw [e, ho, show ownOpt .raw none = emp from rfl, emp_sep] at hm
    exact hm
  | some o =>
    refine RT.ask fun g => ?_
    cases g with
    | false => exact RT.ret fun m hm => by rw [keep_of hb]; exact hm
    | true =>
      refine RT.release (e.trans (by rw [ho]; rfl)) ?_
      refine RT.acquire fun o => RT.ret fun m hm => ?_
      rw [keep_of (by exact hb), e']; exact hm

theorem rSlab_spec (s : RStore) : RT (keep b s) (rSlab A s) (keep b) := by
  unfold rSlab
  refine RT.call (rSlabOffsets_spec s) fun s => ?_
  refine RT.ask fun g => ?_
  cases g with
  | false => exact RT.ret fun m hm => hm
  | true =>
    refine RT.keep0 fun hb => ?_
    refine RT.releaseOpt (c := .raw) (o := s.data) (R := pts s.lock .fd ∗∗ ownOpt .raw s.offsets ∗∗ ownOpt .raw s.table ∗∗ ownItems s.items ∗∗ pts s.fmLock .raw ∗∗
      pts s.map .raw ∗∗ ownArrays s.arrays ∗∗ ownBlocks s.nodes) (by unfold ownStore; ac_rfl) ?_
    refine RT.acquire fun d => RT.ret fun m hm => ?_
    rw [keep_of (by exact hb)]
    show (pts s.lock .fd ∗∗ pts d .raw ∗∗ ownOpt .raw s.offsets ∗∗ ownOpt .raw s.table ∗∗ ownItems s.items ∗∗ pts s.fmLock .raw ∗∗
      pts s.map .raw ∗∗ ownArrays s.arrays ∗∗ ownBlocks s.nodes) m
    perm hm

theorem RT.rFreeArrays {P R : SProp} {Q : β → SProp} {o : Option (Nat × Nat × Nat)} {k : Unit → RM β} (hP : P = ownArrays o ∗∗ R) (h : RT R (k ()) Q) :
    RT P (Urkel.rFreeArrays o >>= k) Q := by
  have key : RT P (Urkel.rFreeArrays o) (fun _ => R) := by
    subst hP
    cases o with
    | none => exact RT.ret fun m hm => by rw [show ownArrays none = emp from rfl, emp_sep] at hm; exact hm
    | some x =>
      obtain ⟨a, b, c⟩ := x
      refine RT.release (a := a) (c := .raw) (R := pts b .raw ∗∗ pts c .raw ∗∗ R) (by show (pts a .raw ∗∗ pts b .raw ∗∗ pts c .raw) ∗∗ R = _; ac_rfl) ?_
      refine RT.release (a := b) (c := .raw) rfl ?_
      exact RT.last (RT.release rfl (RT.ret fun m hm => hm))
  exact RT.call key fun _ => h

theorem rCacheGrow_spec (s : RStore) : RT (keep b s) (rCacheGrow A s) (keep b) := by
  unfold rCacheGrow
  refine RT.ask fun g => ?_
  cases g with
  | false => exact RT.ret fun m hm => hm
  | true =>
    refine RT.keep0 fun hb => ?_
    refine RT.rFreeArrays (o := s.arrays) (R := pts s.lock .fd ∗∗ ownOpt .raw s.data ∗∗ ownOpt .raw s.offsets ∗∗ ownOpt .raw s.table ∗∗ ownItems s.items ∗∗ pts s.fmLock .raw ∗∗
      pts s.map .raw ∗∗ ownBlocks s.nodes) (by unfold ownStore; ac_rfl) ?_
    refine RT.acquire fun a1 => RT.acquire fun a2 => RT.acquire fun a3 => RT.ret fun m hm => ?_
    rw [keep_of (by exact hb)]
    show (pts s.lock .fd ∗∗ ownOpt .raw s.data ∗∗ ownOpt .raw s.offsets ∗∗ ownOpt .raw s.table ∗∗ ownItems s.items ∗∗ pts s.fmLock .raw ∗∗
      pts s.map .raw ∗∗ (pts a1 .raw ∗∗ pts a2 .raw ∗∗ pts a3 .raw) ∗∗ ownBlocks s.nodes) m
    perm hm

theorem rCacheInsert_spec (s : RStore) : RT (keep b s) (rCacheInsert A s) (keep b) := by
  unfold rCacheInsert
  refine RT.acquire fun v => ?_
  rw [sep_comm]
  refine RT.keep fun hb => ?_
  refine RT.use (a := s.map) (c := .raw) (R := pts v .raw ∗∗ pts s.lock .fd ∗∗ ownOpt .raw s.data ∗∗ ownOpt .raw s.offsets ∗∗ ownOpt .raw s.table ∗∗ ownItems s.items ∗∗ pts s.fmLock .raw ∗∗
      ownArrays s.arrays ∗∗ ownBlocks s.nodes) (by unfold ownStore; ac_rfl) ?_
  refine RT.bind (rCacheGrow_spec (b := b) s) (by rw [keep_of hb]) fun s => ?_
  refine RT.ask fun g => ?_
  cases g with
  | false => exact RT.release (sep_comm _ _) (RT.ret fun m hm => hm)
  | true =>
    refine RT.keep fun hb => RT.ret fun m hm => ?_
    rw [keep_of (by exact hb)]
    show (pts s.lock .fd ∗∗ ownOpt .raw s.data ∗∗ ownOpt .raw s.offsets ∗∗ ownOpt .raw s.table ∗∗ ownItems s.items ∗∗ pts s.fmLock .raw ∗∗
      pts s.map .raw ∗∗ ownArrays s.arrays ∗∗ pts v .raw ∗∗ ownBlocks s.nodes) m
    unfold ownStore at hm
    perm hm

theorem rReadRoot_spec (s : RStore) : RT (keep b s) (rReadRoot A s) (fun x => keep b x.1) := by
  unfold rReadRoot
  refine RT.ask fun g => ?_
  cases g with
  | true => exact RT.ret fun m hm => hm
  | false =>
    refine RT.answer fun i => ?_
    refine RT.call (rRead_spec s i) fun x => ?_
    obtain ⟨s, ok⟩ := x
    cases ok with
    | false => exact RT.ret fun m hm => hm
    | true =>
      refine RT.ask fun g => ?_
      cases g with
      | true => exact RT.ret fun m hm => hm
      | false =>
        refine RT.ask fun g => ?_
        cases g with
        | true =>
          refine RT.acquire fun l => RT.acquire fun r => ?_
          refine RT.release (a := l) (c := .raw) (R := pts r .raw ∗∗ keep b s) (by ac_rfl) ?_
          refine RT.release (a := r) (c := .raw) rfl ?_
          exact RT.call (rCacheInsert_spec s) fun s => RT.ret fun m hm => hm
        | false =>
          refine RT.answer fun j => ?_
          refine RT.call (rRead_spec s j) fun x => ?_
          obtain ⟨s, ok⟩ := x
          cases ok with
          | false => exact RT.ret fun m hm => hm
          | true =>
            refine RT.acquire fun v => RT.release rfl ?_
            exact RT.call (rCacheInsert_spec s) fun s => RT.ret fun m hm => hm

theorem rHistoryLoop_spec : ∀ (n : Nat) (s : RStore), RT (keep b s) (rHistoryLoop A n s) (fun x => keep b x.1) := by
  intro n
  induction n with
  | zero => intro s; exact RT.ret fun m hm => hm
  | succ n ih =>
    intro s
    unfold rHistoryLoop
    refine RT.answer fun i => RT.call (rRead_spec s i) fun x => ?_
    obtain ⟨s, ok⟩ := x
    cases ok with
    | false => exact RT.ret fun m hm => hm
    | true =>
      refine RT.call (rReadRoot_spec s) fun x => ?_
      obtain ⟨s, ok⟩ := x
      cases ok with
      | false => exact RT.ret fun m hm => hm
      | true =>
        refine RT.ask fun g => ?_
        cases g with
        | true => exact RT.ret fun m hm => hm
        | false => exact ih s

theorem rFlush_spec : ∀ (n : Nat) (s : RStore), RT (keep b s) (rFlush A n s) (fun x => keep b x.1) := by
  intro n
  induction n with
  | zero => intro s; exact RT.ret fun m hm => hm
  | succ n ih =>
    intro s
    unfold rFlush
    refine RT.call (rWrite_spec s) fun x => ?_
    obtain ⟨s, ok⟩ := x
    cases ok with
    | true => exact ih s
    | false => exact RT.ret fun m hm => hm

theorem rCommitEnd_spec (s : RStore) : RT (keep b s) (rCommitEnd A s) (keep b) := by
  have ev : ∀ s : RStore, RT (keep b s) (rEvict s.items.length s) (keep b) := fun s => RT.post (rEvict_spec _ s) fun x m hm => (lpure_sep.1 hm).2
  unfold rCommitEnd
  refine RT.ask fun g => ?_
  cases g with
  | true => exact RT.call (rCacheInsert_spec s) ev
  | false => exact ev s

theorem rCommit_spec (s : RStore) : RT (keep b s) (rCommit A s) (fun x => keep b x.1) := by
  unfold rCommit
  refine RT.call (rSlab_spec s) fun s => RT.call (rSlab_spec s) fun s => ?_
  refine RT.answer fun n => RT.call (rFlush_spec n s) fun x => ?_
  obtain ⟨s, ok⟩ := x
  cases ok with
  | false => exact RT.ret fun m hm => hm
  | true =>
    refine RT.current fun ok => ?_
    cases ok with
    | false => exact RT.ret fun m hm => hm
    | true => exact RT.call (rCommitEnd_spec s) fun s => RT.ret fun m hm => hm

theorem rAct_spec (s : RStore) (a : RAct) : RT (keep b s) (rAct A s a) (keep b) := by
  cases a with
  | read i => exact RT.call (rRead_spec s i) fun x => RT.ret fun m hm => hm
  | buffer => exact rSlab_spec s
  | flush n => exact RT.call (rFlush_spec n s) fun x => RT.ret fun m hm => hm
  | commit => exact RT.call (rCommit_spec s) fun x => RT.ret fun m hm => hm
  | history n => exact RT.call (rHistoryLoop_spec n s) fun x => RT.ret fun m hm => hm

theorem rActs_spec : ∀ (as : List RAct) (s : RStore), RT (keep b s) (rActs A s as) (keep b) := by
  intro as
  induction as with
  | nil => intro s; exact RT.ret fun m hm => hm
  | cons a as ih => intro s; exact RT.call (rAct_spec s a) ih

/-! ### Opening and closing -/

theorem RT.rInitPrefix {P : SProp} {Q : β → SProp} {k : Bool → RM β} (h : ∀ ok, RT P (k ok) Q) : RT P (Urkel.rInitPrefix A >>= k) Q := by
  have key : RT P (Urkel.rInitPrefix A) (fun _ => P) := by
    unfold Urkel.rInitPrefix
    refine RT.rPathResolve (RT.ret fun m hm => hm) fun p => ?_
    refine RT.ask fun g => ?_
    cases g with
    | true => exact RT.release rfl (RT.ret fun m hm => hm)
    | false => exact RT.release rfl (RT.last (RT.ask fun g => RT.ret fun m hm => hm))
  exact RT.call key h

theorem RT.rInitMeta {P : SProp} {Q : β → SProp} {k : Bool → RM β} (h : ∀ ok, RT P (k ok) Q) : RT P (Urkel.rInitMeta A >>= k) Q := by
  have key : RT P (Urkel.rInitMeta A) (fun _ => P) := by
    unfold Urkel.rInitMeta
    refine RT.ask fun g => ?_
    cases g with
    | true => exact RT.last (RT.rFileOnce fun g => RT.ret fun m hm => hm)
    | false => exact RT.rRandom (RT.last (RT.rFileOnce fun g => RT.ret fun m hm => hm))
  exact RT.call key h

theorem RT.rFindIndex {P : SProp} {Q : β → SProp} {k : Option Nat → RM β} (h : ∀ o, RT P (k o) Q) : RT P (Urkel.rFindIndex A >>= k) Q := by
  have key : RT P (Urkel.rFindIndex A) (fun _ => P) := by
    unfold Urkel.rFindIndex
    refine RT.rScandir (RT.ret fun m hm => hm) fun list items => ?_
    refine RT.rFreeAll (as := items) (R := pts list .raw ∗∗ P) ?_ (by ac_rfl)
    refine RT.release rfl ?_
    refine RT.ask fun g => ?_
    cases g with
    | true => exact RT.answer fun n => RT.ret fun m hm => hm
    | false => exact RT.ret fun m hm => hm
  exact RT.call key h

theorem rMetaLoop_spec {P R1 R2 : SProp} {fd slab : Nat} (h1 : P = pts fd .fd ∗∗ R1) (h2 : P = pts slab .raw ∗∗ R2) :
    ∀ n, RT P (rMetaLoop fd slab n) (fun _ => P) := by
  intro n
  induction n with
  | zero => exact RT.ret fun m hm => hm
  | succ n ih =>
    unfold rMetaLoop
    refine RT.use h2 (RT.rCall h1 fun ok => ?_)
    cases ok with
    | false => exact RT.ret fun m hm => hm
    | true =>
      refine RT.ask fun g => ?_
      cases g with
      | true => exact RT.rCall h1 fun _ => RT.ret fun m hm => hm
      | false => exact ih

theorem RT.rFindMeta {R : SProp} {Q : β → SProp} {slab : Nat} {k : Bool → RM β} (h : ∀ ok, RT (pts slab .raw ∗∗ R) (k ok) Q) :
    RT (pts slab .raw ∗∗ R) (Urkel.rFindMeta A slab >>= k) Q := by
  have key : RT (pts slab .raw ∗∗ R) (Urkel.rFindMeta A slab) (fun _ => pts slab .raw ∗∗ R) := by
    unfold Urkel.rFindMeta
    refine RT.rOpen (RT.ret fun m hm => hm) fun fd => ?_
    refine RT.call (Q0 := fun _ => pts fd .fd ∗∗ pts slab .raw ∗∗ R) ?_ fun ok => RT.rClose rfl (RT.ret fun m hm => hm)
    unfold rMetaRead
    refine RT.rCall rfl fun ok => ?_
    cases ok with
    | false => exact RT.ret fun m hm => hm
    | true => exact RT.answer fun n => rMetaLoop_spec rfl (sep_left_comm _ _ _) n
  exact RT.call key h

theorem rRecoverLoop_spec {R : SProp} {slab : Nat} : ∀ n, RT (pts slab .raw ∗∗ R) (rRecoverLoop A slab n) (fun _ => pts slab .raw ∗∗ R) := by
  intro n
  induction n with
  | zero => exact RT.ret fun m hm => hm
  | succ n ih =>
    unfold rRecoverLoop
    refine RT.rFindMeta fun ok => ?_
    cases ok with
    | true => exact RT.ret fun m hm => hm
    | false =>
      refine RT.ask fun g => ?_
      cases g with
      | true => exact ih
      | false => exact RT.ret fun m hm => hm

theorem RT.rRecover {P : SProp} {Q : β → SProp} {i : Nat} {k : Option Nat → RM β} (h : ∀ o, RT P (k o) Q) : RT P (Urkel.rRecover A i >>= k) Q := by
  have key : RT P (Urkel.rRecover A i) (fun _ => P) := by
    unfold Urkel.rRecover
    refine RT.acquire fun slab => RT.call (rRecoverLoop_spec i) fun r => ?_
    exact RT.release rfl (RT.ret fun m hm => hm)
  exact RT.call key h

theorem RT.rClearFiles {Q : β → SProp} {R : SProp} {k : Unit → RM β} (h : RT R (k ()) Q) :
    ∀ {items : List (Option RFile)} {P : SProp}, P = ownItems items ∗∗ R → RT P (Urkel.rClearFiles items >>= k) Q := by
  have key : ∀ items : List (Option RFile), RT (ownItems items ∗∗ R) (Urkel.rClearFiles items) (fun _ => R) := by
    intro items
    induction items with
    | nil => exact RT.ret fun m hm => by rw [show ownItems [] = emp from rfl, emp_sep] at hm; exact hm
    | cons o os ih =>
      cases o with
      | none => exact RT.eq_pre (by show (emp ∗∗ _) ∗∗ R = _; rw [emp_sep]) ih
      | some f => exact RT.rFileClose (sep_assoc _ _ _) ih
  intro items P hP
  subst hP
  exact RT.call (key items) fun _ => h

theorem rClear_spec (s : RStore) : RT (ownStore s) (rClear s) (fun _ => emp) := by
  unfold rClear
  refine RT.releaseOpt (c := .raw) (o := s.data) (R := pts s.lock .fd ∗∗ ownOpt .raw s.offsets ∗∗ ownOpt .raw s.table ∗∗ ownItems s.items ∗∗ pts s.fmLock .raw ∗∗
    pts s.map .raw ∗∗ ownArrays s.arrays ∗∗ ownBlocks s.nodes) (by unfold ownStore; ac_rfl) ?_
  refine RT.releaseOpt (c := .raw) (o := s.offsets) (R := pts s.lock .fd ∗∗ ownOpt .raw s.table ∗∗ ownItems s.items ∗∗ pts s.fmLock .raw ∗∗
    pts s.map .raw ∗∗ ownArrays s.arrays ∗∗ ownBlocks s.nodes) (by ac_rfl) ?_
  refine RT.use (a := s.fmLock) (c := .raw) (R := pts s.lock .fd ∗∗ ownOpt .raw s.table ∗∗ ownItems s.items ∗∗
    pts s.map .raw ∗∗ ownArrays s.arrays ∗∗ ownBlocks s.nodes) (by ac_rfl) ?_
  refine RT.rClearFiles (items := s.items) (R := pts s.lock .fd ∗∗ ownOpt .raw s.table ∗∗ pts s.fmLock .raw ∗∗
    pts s.map .raw ∗∗ ownArrays s.arrays ∗∗ ownBlocks s.nodes) ?_ (by ac_rfl)
  refine RT.releaseOpt (c := .raw) (o := s.table) (R := pts s.lock .fd ∗∗ pts s.fmLock .raw ∗∗ pts s.map .raw ∗∗ ownArrays s.arrays ∗∗ ownBlocks s.nodes) (by ac_rfl) ?_
  refine RT.release (a := s.fmLock) (c := .raw) (R := pts s.lock .fd ∗∗ pts s.map .raw ∗∗ ownArrays s.arrays ∗∗ ownBlocks s.nodes) (by ac_rfl) ?_
  refine RT.rFreeAll (as := s.nodes) (R := pts s.lock .fd ∗∗ pts s.map .raw ∗∗ ownArrays s.arrays) ?_ (by ac_rfl)
  refine RT.rFreeArrays (o := s.arrays) (R := pts s.lock .fd ∗∗ pts s.map .raw) (by ac_rfl) ?_
  refine RT.release (a := s.map) (c := .raw) (R := pts s.lock .fd) (by ac_rfl) ?_
  exact RT.last (RT.rCloseLock (sep_emp _).symm (RT.ret fun m hm => hm))

/-- What an attempt at opening leaves: nothing, or what the store holds. -/
def opened (b : Nat) : Option RStore → SProp
  | none => emp
  | some s => keep b s

theorem rInitEnd_spec (s : RStore) : RT (keep b s) (rInitEnd A s) (opened b) := by
  unfold rInitEnd
  have clr : ∀ s : RStore, RT (keep b s) (rClear s >>= fun _ => pure none) (opened b) := fun s =>
    RT.keep0 fun _ => RT.call (rClear_spec s) fun _ => RT.ret fun m hm => hm
  refine RT.call (rOpenFile_spec s s.index false) fun x => ?_
  obtain ⟨s, o⟩ := x
  refine RT.pure_pre fun _ => ?_
  cases o with
  | none => exact clr s
  | some f =>
    refine RT.call (rReadRoot_spec s) fun x => ?_
    obtain ⟨s, ok⟩ := x
    cases ok with
    | true => exact RT.ret fun m hm => hm
    | false => exact clr s

theorem rInit_spec (b : Nat) : RT (pts b .raw) (rInit A b) (fun o => pts b .raw ∗∗ opened b o) := by
  have fail : ∀ m, pts b .raw m → (pts b .raw ∗∗ opened b none) m := fun m hm => by rw [show opened b none = emp from rfl, sep_emp]; exact hm
  unfold rInit
  refine RT.use (sep_emp _).symm ?_
  refine RT.rInitPrefix fun ok => ?_
  cases ok with
  | false => exact RT.ret fail
  | true =>
    refine RT.rInitMeta fun ok => ?_
    cases ok with
    | false => exact RT.ret fail
    | true =>
      refine RT.rFindIndex fun o => ?_
      cases o with
      | none => exact RT.ret fail
      | some index =>
        refine RT.rOpenLock (RT.ret fail) fun lock => ?_
        refine RT.rRecover fun o => ?_
        cases o with
        | none => exact RT.rCloseLock rfl (RT.ret fail)
        | some index =>
          refine RT.acquire fun fm => RT.acquire fun map => RT.rRandom ?_
          refine RT.last (RT.bind (rInitEnd_spec (b := b) ⟨b, lock, none, none, none, [], fm, map, none, [], index⟩) (R := pts b .raw) ?_ fun o => RT.ret fun m hm => by perm hm)
          rw [keep_of (by rfl)]
          show _ = (pts lock .fd ∗∗ emp ∗∗ emp ∗∗ emp ∗∗ emp ∗∗ pts fm .raw ∗∗ pts map .raw ∗∗ emp ∗∗ emp) ∗∗ pts b .raw
          simp only [emp_sep, sep_emp]
          ac_rfl

/-- All that an open store holds. -/
def whole (s : RStore) : SProp := pts s.blk .raw ∗∗ ownStore s

def wholeOpt : Option RStore → SProp
  | none => emp
  | some s => whole s

theorem rStoreOpen_spec : RT emp (rStoreOpen A) wholeOpt := by
  unfold rStoreOpen
  refine RT.acquire fun blk => ?_
  rw [sep_emp]
  refine RT.call (rInit_spec blk) fun o => ?_
  cases o with
  | none => exact RT.release rfl (RT.ret fun m hm => hm)
  | some s =>
    rw [sep_comm]
    refine RT.keep fun hb => RT.ret fun m hm => ?_
    show (pts s.blk .raw ∗∗ ownStore s) m
    rw [hb]; perm hm

theorem rStoreClose_spec (s : RStore) : RT (whole s) (rStoreClose s) (fun _ => emp) := by
  unfold rStoreClose
  refine RT.bind (rClear_spec s) (R := pts s.blk .raw) (sep_comm _ _) fun _ => ?_
  rw [emp_sep]
  exact RT.last (RT.release (sep_emp _).symm (RT.ret fun m hm => hm))

theorem rActs_whole (as : List RAct) (s : RStore) : RT (whole s) (rActs A s as) whole := by
  refine RT.last (RT.bind (rActs_spec (b := s.blk) as s) (R := pts s.blk .raw) (by rw [keep_of rfl]; exact sep_comm _ _) fun s' => ?_)
  refine RT.keep fun hb => RT.ret fun m hm => ?_
  show (pts s'.blk .raw ∗∗ ownStore s') m
  rw [hb]; perm hm

theorem rStoreDestroy_spec : RT emp (rStoreDestroy A) (fun _ => emp) := by
  unfold rStoreDestroy
  refine RT.rPathResolve (RT.ret fun m hm => hm) fun p => ?_
  refine RT.ask fun g => ?_
  cases g with
  | true => exact RT.release rfl (RT.ret fun m hm => hm)
  | false =>
    refine RT.rOpenLock (RT.release rfl (RT.ret fun m hm => hm)) fun fd => ?_
    refine RT.rScandir (RT.rCloseLock rfl (RT.release rfl (RT.ret fun m hm => hm))) fun list items => ?_
    refine RT.rFreeAll (as := items) (R := pts list .raw ∗∗ pts fd .fd ∗∗ pts p .raw ∗∗ emp) ?_ (by ac_rfl)
    refine RT.release rfl (RT.rCloseLock rfl (RT.ask fun ok => ?_))
    exact RT.release rfl (RT.ret fun m hm => hm)

/-- All that an open database holds. -/
def wholeDb (d : RDb) : SProp := pts d.blk .raw ∗∗ pts d.lock .raw ∗∗ whole d.store

theorem rDbOpen_spec : RT emp (rDbOpen A) (fun o => match o with | none => ex fun a => pts a .raw | some d => wholeDb d) := by
  unfold rDbOpen
  refine RT.acquire fun blk => ?_
  refine RT.bind rStoreOpen_spec (R := pts blk .raw) (sep_comm _ _) fun o => ?_
  cases o with
  | none => exact RT.ret fun m hm => ⟨blk, by rw [show wholeOpt none = emp from rfl, emp_sep] at hm; exact hm⟩
  | some s =>
    refine RT.acquire fun lock => RT.ret fun m hm => ?_
    show (pts blk .raw ∗∗ pts lock .raw ∗∗ whole s) m
    have hm' : (pts lock .raw ∗∗ whole s ∗∗ pts blk .raw) m := hm
    perm hm'

theorem rDbClose_spec (d : RDb) : RT (wholeDb d) (rDbClose d) (fun _ => emp) := by
  unfold rDbClose
  refine RT.use (a := d.lock) (c := .raw) (R := pts d.blk .raw ∗∗ whole d.store) (sep_left_comm _ _ _) ?_
  refine RT.bind (rStoreClose_spec d.store) (R := pts d.lock .raw ∗∗ pts d.blk .raw) (by unfold wholeDb; ac_rfl) fun _ => ?_
  rw [emp_sep]
  refine RT.release rfl ?_
  exact RT.last (RT.release (sep_emp _).symm (RT.ret fun m hm => hm))

end

end Urkel
