import Verif.Lemmas.Sep
import Verif.Model.Resource
/-
Resources are released exactly once.
-/
namespace Urkel

/-- A triple whatever the answers are. -/
def RT {α : Type} (P : SProp) (m : RM α) (Q : α → SProp) : Prop := ∀ w, Triple P (m w) (fun y => Q y.1)

namespace RT
variable {α β : Type}

theorem ret {P : SProp} {Q : α → SProp} {a : α} (h : ∀ m, P m → Q a m) : RT P (pure a) Q := fun _ => Triple.ret h

theorem bind {P R : SProp} {Q0 : α → SProp} {Q : β → SProp} {m : RM α} {k : α → RM β} {P0 : SProp} (hm : RT P0 m Q0)
    (hP : P = P0 ∗∗ R) (hk : ∀ a, RT (Q0 a ∗∗ R) (k a) Q) : RT P (m >>= k) Q := fun w => Triple.bind (hm w) hP fun y => hk y.1 y.2

theorem call {P : SProp} {Q0 : α → SProp} {Q : β → SProp} {m : RM α} {k : α → RM β} (hm : RT P m Q0)
    (hk : ∀ a, RT (Q0 a) (k a) Q) : RT P (m >>= k) Q := bind hm (sep_emp _).symm fun a => by rw [sep_emp]; exact hk a

theorem last {P : SProp} {Q : α → SProp} {m : RM α} (h : RT P (m >>= fun a => pure a) Q) : RT P m Q := fun w => Triple.last (h w)

theorem post {P : SProp} {Q Q' : α → SProp} {m : RM α} (h : RT P m Q) (hq : ∀ a m, Q a m → Q' a m) : RT P m Q' :=
  fun w => Triple.post (h w) fun y => hq y.1

theorem pre {P P' : SProp} {Q : α → SProp} {m : RM α} (hp : ∀ m, P m → P' m) (h : RT P' m Q) : RT P m Q := fun w => Triple.pre hp (h w)

theorem eq_pre {P P' : SProp} {Q : α → SProp} {m : RM α} (hp : P = P') (h : RT P' m Q) : RT P m Q := hp ▸ h

theorem ex_pre {γ : Type} {P : γ → SProp} {Q : α → SProp} {m : RM α} (h : ∀ x, RT (P x) m Q) : RT (ex P) m Q := fun w => Triple.ex_pre fun x => h x w

theorem pure_pre {p : Prop} {P : SProp} {Q : α → SProp} {m : RM α} (h : p → RT P m Q) : RT (lpure p ∗∗ P) m Q := fun w => Triple.pure_pre fun hp => h hp w

theorem frame {P R : SProp} {Q : α → SProp} {m : RM α} (h : RT P m Q) : RT (P ∗∗ R) m (fun a => Q a ∗∗ R) := fun w => Triple.frame (h w)

theorem answer {P : SProp} {Q : β → SProp} {k : Nat → RM β} (h : ∀ n, RT P (k n) Q) : RT P (Urkel.answer >>= k) Q := fun w => h _ _

theorem ask {P : SProp} {Q : β → SProp} {k : Bool → RM β} (h : ∀ b, RT P (k b) Q) : RT P (Urkel.ask >>= k) Q := fun w => h _ _

theorem acquire {P : SProp} {Q : β → SProp} {A : Alloc} {c : Cell} {k : Nat → RM β} (h : ∀ a, RT (pts a c ∗∗ P) (k a) Q) :
    RT P (Urkel.acquire A c >>= k) Q := fun w => Triple.malloc fun a => h a w

theorem use {P R : SProp} {Q : β → SProp} {a : Nat} {c : Cell} {k : Unit → RM β} (hP : P = pts a c ∗∗ R) (h : RT P (k ()) Q) :
    RT P (Urkel.use c a >>= k) Q := by
  have key : RT P (Urkel.use c a) (fun _ => P) := fun w => by
    show Triple P ((Urkel.load a >>= fun d => if d = c then (pure () : HM Unit) else HM.ub) >>= fun x => pure (x, w)) _
    intro F x hx
    have hl := Triple.look (x := x) (a := a) (c := c) (R := R ∗∗ F) (by rw [hP, sep_assoc] at hx; exact hx)
    have h1 : (Urkel.load a >>= fun d => if d = c then (pure () : HM Unit) else HM.ub) x = .ok ((), x) := by
      refine (HM.bind_of (a := c) (h' := x) (by unfold Urkel.load; rw [hl])).trans ?_
      rw [if_pos rfl]; rfl
    exact ⟨((), w), x, (HM.bind_of h1).trans rfl, hx⟩
  exact call key fun _ => h

theorem release {P R : SProp} {Q : β → SProp} {a : Nat} {c : Cell} {k : Unit → RM β} (hP : P = pts a c ∗∗ R) (h : RT R (k ()) Q) :
    RT P (Urkel.release c a >>= k) Q := by
  have key : RT P (Urkel.release c a) (fun _ => R) :=
    use hP fun w => by
      show Triple P (Urkel.free a >>= fun x => pure (x, w)) _
      exact Triple.free hP (Triple.ret fun _ hm => hm)
  exact call key fun _ => h

end RT

/-! ### What is owned -/

def ownOpt (c : Cell) : Option Nat → SProp
  | none => emp
  | some a => pts a c

def ownFile (f : RFile) : SProp := pts f.blk .raw ∗∗ ownOpt .fd f.fd ∗∗ ownOpt .mapping f.base

def ownSlot : Option RFile → SProp
  | none => emp
  | some f => ownFile f

def ownItems : List (Option RFile) → SProp
  | [] => emp
  | o :: os => ownSlot o ∗∗ ownItems os

def ownBlocks : List Nat → SProp
  | [] => emp
  | a :: as => pts a .raw ∗∗ ownBlocks as

def ownArrays : Option (Nat × Nat × Nat) → SProp
  | none => emp
  | some (a, b, c) => pts a .raw ∗∗ pts b .raw ∗∗ pts c .raw

/-- All that an open store holds except its own block. -/
def ownStore (s : RStore) : SProp :=
  pts s.lock .fd ∗∗ ownOpt .raw s.data ∗∗ ownOpt .raw s.offsets ∗∗ ownOpt .raw s.table ∗∗ ownItems s.items ∗∗ pts s.fmLock .raw ∗∗
    pts s.map .raw ∗∗ ownArrays s.arrays ∗∗ ownBlocks s.nodes

theorem ownItems_slot : ∀ (items : List (Option RFile)) (i : Nat) (o : Option RFile), i < items.length →
    ownItems (items.set i o) ∗∗ ownSlot (items.getD i none) = ownSlot o ∗∗ ownItems items
  | x :: xs, 0, o, _ => by
    show (ownSlot o ∗∗ ownItems xs) ∗∗ ownSlot x = ownSlot o ∗∗ ownSlot x ∗∗ ownItems xs
    ac_rfl
  | x :: xs, i + 1, o, h => by
    have := ownItems_slot xs i o (by simpa using h)
    show (ownSlot x ∗∗ ownItems (xs.set i o)) ∗∗ ownSlot (xs.getD i none) = ownSlot o ∗∗ ownSlot x ∗∗ ownItems xs
    rw [sep_assoc, this]; ac_rfl

theorem ownItems_fresh {items : List (Option RFile)} {i : Nat} (f : RFile) (h : i < items.length) (hn : items.getD i none = none) :
    ownItems (items.set i (some f)) = ownFile f ∗∗ ownItems items := by
  have := ownItems_slot items i (some f) h
  rw [hn] at this
  exact (sep_emp _).symm.trans this

theorem ownItems_take {items : List (Option RFile)} {i : Nat} {f : RFile} (hf : items.getD i none = some f) :
    ownItems items = ownFile f ∗∗ ownItems (items.set i none) := by
  have hl : i < items.length := by
    by_contra hc
    rw [List.getD_eq_getElem?_getD, List.getElem?_eq_none (by omega)] at hf; cases hf
  have := ownItems_slot items i none hl
  rw [hf] at this
  have e : ownItems items = emp ∗∗ ownItems items := (emp_sep _).symm
  rw [e]
  exact this.symm.trans (sep_comm _ _)

theorem ownItems_put {items : List (Option RFile)} {i : Nat} {f g : RFile} (hf : items.getD i none = some f) :
    ownItems (items.set i (some g)) = ownFile g ∗∗ ownItems (items.set i none) := by
  have hl : i < items.length := by
    by_contra hc
    rw [List.getD_eq_getElem?_getD, List.getElem?_eq_none (by omega)] at hf; cases hf
  have e : items.set i (some g) = (items.set i none).set i (some g) := by rw [List.set_set]
  rw [e]
  exact ownItems_fresh g (by simpa using hl) (by simp [hl])

theorem ownItems_append (a b : List (Option RFile)) : ownItems (a ++ b) = ownItems a ∗∗ ownItems b := by
  induction a with
  | nil => exact (emp_sep _).symm
  | cons x xs ih => show ownSlot x ∗∗ ownItems (xs ++ b) = (ownSlot x ∗∗ ownItems xs) ∗∗ ownItems b; rw [ih]; ac_rfl

theorem ownItems_none (n : Nat) : ownItems (List.replicate n none) = emp := by
  induction n with
  | zero => rfl
  | succ n ih => rw [List.replicate_succ]; show emp ∗∗ ownItems (List.replicate n none) = emp; rw [ih, emp_sep]

/-! ### io_posix.c and io.c -/

section
variable {β : Type} {P R : SProp} {Q : β → SProp} {A : Alloc}

theorem RT.releaseOpt {c : Cell} {o : Option Nat} {k : Unit → RM β} (hP : P = ownOpt c o ∗∗ R) (h : RT R (k ()) Q) : RT P (Urkel.releaseOpt c o >>= k) Q := by
  subst hP
  cases o with
  | none => show RT (emp ∗∗ R) _ _; rw [emp_sep]; exact h
  | some a => exact RT.release rfl h

theorem RT.rOpen {k : Option Nat → RM β} (h1 : RT P (k none) Q) (h2 : ∀ fd, RT (pts fd .fd ∗∗ P) (k (some fd)) Q) : RT P (Urkel.rOpen A >>= k) Q := by
  have key : RT P (Urkel.rOpen A) (fun o => ownOpt .fd o ∗∗ P) := by
    unfold Urkel.rOpen
    refine RT.ask fun b => ?_
    cases b with
    | true => exact RT.acquire fun fd => RT.ret fun m hm => hm
    | false => exact RT.ret fun m hm => by show (emp ∗∗ P) m; rw [emp_sep]; exact hm
  refine RT.call key fun o => ?_
  cases o with
  | none => show RT (emp ∗∗ P) _ _; rw [emp_sep]; exact h1
  | some fd => exact h2 fd

theorem RT.rCall {fd : Nat} {k : Bool → RM β} (hP : P = pts fd .fd ∗∗ R) (h : ∀ b, RT P (k b) Q) : RT P (Urkel.rCall fd >>= k) Q := by
  have key : RT P (Urkel.rCall fd) (fun _ => P) := by
    unfold Urkel.rCall
    exact RT.use hP (RT.last (RT.ask fun b => RT.ret fun m hm => hm))
  exact RT.call key h

theorem RT.rClose {fd : Nat} {k : Unit → RM β} (hP : P = pts fd .fd ∗∗ R) (h : RT R (k ()) Q) : RT P (Urkel.rClose fd >>= k) Q := RT.release hP h

theorem RT.rCloseLock {fd : Nat} {k : Unit → RM β} (hP : P = pts fd .fd ∗∗ R) (h : RT R (k ()) Q) : RT P (Urkel.rCloseLock fd >>= k) Q := by
  have key : RT P (Urkel.rCloseLock fd) (fun _ => R) := by
    unfold Urkel.rCloseLock
    exact RT.rCall hP fun _ => RT.last (RT.rClose hP (RT.ret fun m hm => hm))
  exact RT.call key fun _ => h

theorem RT.rCallOpt {o : Option Nat} {k : Bool → RM β} (hP : P = ownOpt .fd o ∗∗ R) (h : ∀ b, RT P (k b) Q) : RT P (Urkel.rCallOpt o >>= k) Q := by
  cases o with
  | none => exact h false
  | some fd => exact RT.rCall hP h

theorem RT.rFileOnce {k : Bool → RM β} (h : ∀ b, RT P (k b) Q) : RT P (Urkel.rFileOnce A >>= k) Q := by
  have key : RT P (Urkel.rFileOnce A) (fun _ => P) := by
    unfold Urkel.rFileOnce
    refine RT.rOpen (RT.ret fun m hm => hm) fun fd => ?_
    exact RT.rCall rfl fun ok => RT.rClose rfl (RT.ret fun m hm => hm)
  exact RT.call key h

theorem RT.rOpenLock {k : Option Nat → RM β} (h1 : RT P (k none) Q) (h2 : ∀ fd, RT (pts fd .fd ∗∗ P) (k (some fd)) Q) : RT P (Urkel.rOpenLock A >>= k) Q := by
  have key : RT P (Urkel.rOpenLock A) (fun o => ownOpt .fd o ∗∗ P) := by
    unfold Urkel.rOpenLock
    refine RT.rOpen (RT.ret fun m hm => by show (emp ∗∗ P) m; rw [emp_sep]; exact hm) fun fd => ?_
    refine RT.rCall rfl fun ok => ?_
    cases ok with
    | true => exact RT.ret fun m hm => hm
    | false => exact RT.rClose rfl (RT.ret fun m hm => by show (emp ∗∗ P) m; rw [emp_sep]; exact hm)
  refine RT.call key fun o => ?_
  cases o with
  | none => show RT (emp ∗∗ P) _ _; rw [emp_sep]; exact h1
  | some fd => exact h2 fd

theorem RT.rFreeAll {k : Unit → RM β} (h : RT R (k ()) Q) : ∀ {as : List Nat} {P : SProp}, P = ownBlocks as ∗∗ R → RT P (Urkel.rFreeAll as >>= k) Q := by
  have key : ∀ as : List Nat, RT (ownBlocks as ∗∗ R) (Urkel.rFreeAll as) (fun _ => R) := by
    intro as
    induction as with
    | nil => exact RT.ret fun m hm => by rw [show ownBlocks [] = emp from rfl, emp_sep] at hm; exact hm
    | cons a as ih => exact RT.release (sep_assoc _ _ _) ih
  intro as P hP
  subst hP
  exact RT.call (key as) fun _ => h

theorem rScanLoop_spec : ∀ (n size list : Nat) (items : List Nat), RT (pts list .raw ∗∗ ownBlocks items) (rScanLoop A n size list items)
    (fun x => pts x.2.1 .raw ∗∗ ownBlocks x.2.2) := by
  intro n
  induction n with
  | zero => intro size list items; exact RT.ask fun ok => RT.ret fun m hm => hm
  | succ n ih =>
    intro size list items
    unfold rScanLoop
    refine RT.ask fun b => ?_
    cases b with
    | true => exact ih size list items
    | false =>
      refine RT.acquire fun item => ?_
      refine RT.ask fun b => ?_
      cases b with
      | true => exact RT.release rfl (RT.ret fun m hm => hm)
      | false =>
        show RT _ (if items.length = size then _ else _) _
        split
        · refine RT.release (a := list) (c := .raw) (R := pts item .raw ∗∗ ownBlocks items) (by ac_rfl) ?_
          refine RT.acquire fun list' => ?_
          refine RT.use (a := item) (c := .raw) (R := pts list' .raw ∗∗ ownBlocks items) (by ac_rfl) ?_
          exact ih _ list' (item :: items)
        · refine RT.use (a := item) (c := .raw) rfl ?_
          exact RT.eq_pre (sep_left_comm _ _ _) (ih _ list (item :: items))

/-- The entries and the list. -/
def ownList : Option (Nat × List Nat) → SProp
  | none => emp
  | some (list, items) => pts list .raw ∗∗ ownBlocks items

theorem rScandir_spec : RT emp (rScandir A) ownList := by
  unfold rScandir
  refine RT.acquire fun list => ?_
  rw [sep_emp]
  refine RT.ask fun b => ?_
  cases b with
  | false => exact RT.release (sep_emp _).symm (RT.ret fun m hm => hm)
  | true =>
    refine RT.acquire fun dir => ?_
    refine RT.answer fun n => ?_
    refine RT.bind (rScanLoop_spec n 8 list []) (R := pts dir .dir) (by show _ = (pts list .raw ∗∗ emp) ∗∗ _; rw [sep_emp]; ac_rfl) fun x => ?_
    obtain ⟨ok, list', items⟩ := x
    refine RT.use (a := dir) (c := .dir) (R := pts list' .raw ∗∗ ownBlocks items) (sep_comm _ _) ?_
    cases ok with
    | true => exact RT.release (a := dir) (c := .dir) (sep_comm _ _) (RT.ret fun m hm => hm)
    | false =>
      refine RT.rFreeAll (as := items) (R := pts list' .raw ∗∗ pts dir .dir) ?_ (by ac_rfl)
      refine RT.release (a := list') (c := .raw) rfl ?_
      exact RT.release (a := dir) (c := .dir) (sep_emp _).symm (RT.ret fun m hm => hm)

theorem RT.rScandir {k : Option (Nat × List Nat) → RM β} (h1 : RT P (k none) Q)
    (h2 : ∀ list items, RT (pts list .raw ∗∗ ownBlocks items ∗∗ P) (k (some (list, items))) Q) : RT P (Urkel.rScandir A >>= k) Q := by
  refine RT.bind rScandir_spec (R := P) (emp_sep _).symm fun o => ?_
  cases o with
  | none => show RT (emp ∗∗ P) _ _; rw [emp_sep]; exact h1
  | some x => exact RT.eq_pre (sep_assoc _ _ _) (h2 x.1 x.2)

theorem RT.rFileClose {f : RFile} {k : Unit → RM β} (hP : P = ownFile f ∗∗ R) (h : RT R (k ()) Q) : RT P (Urkel.rFileClose f >>= k) Q := by
  have key : RT P (Urkel.rFileClose f) (fun _ => R) := by
    unfold Urkel.rFileClose
    refine RT.releaseOpt (R := pts f.blk .raw ∗∗ ownOpt .fd f.fd ∗∗ R) (by rw [hP]; unfold ownFile; ac_rfl) ?_
    refine RT.releaseOpt (R := pts f.blk .raw ∗∗ R) (by ac_rfl) ?_
    exact RT.last (RT.release rfl (RT.ret fun m hm => hm))
  exact RT.call key fun _ => h

theorem rFileOpen_spec (ro : Bool) : RT emp (rFileOpen A ro) ownSlot := by
  unfold rFileOpen
  refine RT.rOpen (RT.ret fun m hm => hm) fun fd => ?_
  rw [sep_emp]
  refine RT.rCall (sep_emp _).symm fun ok => ?_
  cases ok with
  | false => exact RT.rClose (sep_emp _).symm (RT.ret fun m hm => hm)
  | true =>
    refine RT.acquire fun blk => ?_
    refine RT.ask fun b => ?_
    cases b with
    | false =>
      refine RT.ret fun m hm => ?_
      show (pts blk .raw ∗∗ pts fd .fd ∗∗ emp) m
      rw [sep_emp]; exact hm
    | true =>
      refine RT.ask fun b => ?_
      cases b with
      | false =>
        refine RT.rFileClose (R := emp) ?_ (RT.ret fun m hm => hm)
        show _ = (pts blk .raw ∗∗ pts fd .fd ∗∗ emp) ∗∗ emp
        rw [sep_emp, sep_emp]
      | true =>
        refine RT.acquire fun base => ?_
        cases ro with
        | false =>
          refine RT.ret fun m hm => ?_
          show (pts blk .raw ∗∗ pts fd .fd ∗∗ pts base .mapping) m
          perm hm
        | true =>
          refine RT.rClose (R := pts base .mapping ∗∗ pts blk .raw) (by ac_rfl) (RT.ret fun m hm => ?_)
          show (pts blk .raw ∗∗ emp ∗∗ pts base .mapping) m
          perm hm

theorem RT.rFileOpen {ro : Bool} {k : Option RFile → RM β} (h1 : RT P (k none) Q) (h2 : ∀ f, RT (ownFile f ∗∗ P) (k (some f)) Q) :
    RT P (Urkel.rFileOpen A ro >>= k) Q := by
  refine RT.bind (rFileOpen_spec ro) (R := P) (emp_sep _).symm fun o => ?_
  cases o with
  | none => show RT (emp ∗∗ P) _ _; rw [emp_sep]; exact h1
  | some f => exact h2 f

theorem RT.rFilePread {f : RFile} {k : Bool → RM β} (hP : P = ownFile f ∗∗ R) (h : ∀ b, RT P (k b) Q) : RT P (Urkel.rFilePread f >>= k) Q := by
  have key : RT P (Urkel.rFilePread f) (fun _ => P) := by
    unfold Urkel.rFilePread
    refine RT.use (a := f.blk) (c := .raw) (R := ownOpt .fd f.fd ∗∗ ownOpt .mapping f.base ∗∗ R) (by rw [hP]; unfold ownFile; ac_rfl) ?_
    refine RT.ask fun b => ?_
    cases b with
    | true => exact RT.ret fun m hm => hm
    | false =>
      show RT P (match f.base with | some b => _ | none => _) _
      cases hb : f.base with
      | some b =>
        refine RT.use (a := b) (c := .mapping) (R := pts f.blk .raw ∗∗ ownOpt .fd f.fd ∗∗ R) ?_ (RT.ret fun m hm => hm)
        rw [hP]; unfold ownFile; rw [hb]; show _ = ownOpt .mapping (some b) ∗∗ _; ac_rfl
      | none =>
        exact RT.last (RT.rCallOpt (R := pts f.blk .raw ∗∗ ownOpt .mapping f.base ∗∗ R) (by rw [hP]; unfold ownFile; ac_rfl) fun b => RT.ret fun m hm => hm)
  exact RT.call key h

theorem rFileAppend_spec {f : RFile} (hf : f.base = none) : RT (ownFile f) (rFileAppend A f) (fun x => ownFile x.2) := by
  unfold rFileAppend
  refine RT.rCallOpt (R := pts f.blk .raw ∗∗ ownOpt .mapping f.base) (by unfold ownFile; ac_rfl) fun b => ?_
  cases b with
  | false => exact RT.ret fun m hm => hm
  | true =>
    show RT _ (if f.mapped = true then _ else _) _
    split
    · refine RT.ask fun b => ?_
      cases b with
      | false => exact RT.ret fun m hm => hm
      | true =>
        refine RT.acquire fun base => RT.ret fun m hm => ?_
        show (pts f.blk .raw ∗∗ ownOpt .fd f.fd ∗∗ pts base .mapping) m
        unfold ownFile at hm
        rw [hf, show ownOpt .mapping none = emp from rfl] at hm
        perm hm
    · exact RT.ret fun m hm => hm

theorem rFileWrite_spec {f : RFile} : RT (ownFile f) (rFileWrite A f) (fun x => ownFile x.2) := by
  unfold rFileWrite
  refine RT.use (a := f.blk) (c := .raw) rfl ?_
  cases hb : f.base with
  | none => exact rFileAppend_spec hb
  | some b =>
    refine RT.ask fun x => ?_
    cases x with
    | false => exact RT.ret fun m hm => hm
    | true =>
      refine RT.release (a := b) (c := .mapping) (R := pts f.blk .raw ∗∗ ownOpt .fd f.fd) (by unfold ownFile; rw [hb]; show pts f.blk .raw ∗∗ ownOpt .fd f.fd ∗∗ pts b .mapping = _; ac_rfl) ?_
      refine RT.eq_pre ?_ (rFileAppend_spec (f := { f with base := none }) rfl)
      show _ = pts f.blk .raw ∗∗ ownOpt .fd f.fd ∗∗ emp
      rw [sep_emp]

theorem RT.rPathResolve {k : Option Nat → RM β} (h1 : RT P (k none) Q) (h2 : ∀ p, RT (pts p .raw ∗∗ P) (k (some p)) Q) : RT P (Urkel.rPathResolve A >>= k) Q := by
  have key : RT P (Urkel.rPathResolve A) (fun o => ownOpt .raw o ∗∗ P) := by
    unfold Urkel.rPathResolve
    refine RT.acquire fun out => ?_
    refine RT.ask fun b => ?_
    cases b with
    | true => exact RT.release rfl (RT.acquire fun out => RT.ret fun m hm => hm)
    | false => exact RT.release rfl (RT.ret fun m hm => by show (emp ∗∗ P) m; rw [emp_sep]; exact hm)
  refine RT.call key fun o => ?_
  cases o with
  | none => show RT (emp ∗∗ P) _ _; rw [emp_sep]; exact h1
  | some p => exact h2 p

theorem RT.rRandom {k : Unit → RM β} (h : RT P (k ()) Q) : RT P (Urkel.rRandom A >>= k) Q := by
  have key : RT P (Urkel.rRandom A) (fun _ => P) := by
    unfold Urkel.rRandom
    refine RT.rOpen ?_ fun fd => RT.rCall rfl fun _ => RT.last (RT.rClose rfl (RT.ret fun m hm => hm))
    refine RT.rOpen (RT.ret fun m hm => hm) fun fd => RT.rCall rfl fun _ => RT.last (RT.rClose rfl (RT.ret fun m hm => hm))
  exact RT.call key fun _ => h

end

end Urkel
