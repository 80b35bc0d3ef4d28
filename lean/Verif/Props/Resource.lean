import Verif.Lemmas.ResourceStore
import Verif.Spec.Resource
import Verif.Props.Memory
/-
C68: descriptors, mappings and memory of the store.
-/
namespace Urkel

theorem RT.restores {α : Type} {m : RM α} (h : RT emp m fun _ => emp) : Restores m := by
  intro w heap
  obtain ⟨y, heap', h1, h2⟩ := h w (fun m => m = view heap) heap (by rw [emp_sep])
  rw [emp_sep] at h2
  exact ⟨y.1, y.2, heap', h1, fun a => congrFun h2 a⟩

theorem rStoreSession_spec (A : Alloc) (as : List RAct) : RT emp (rStoreSession A as) fun _ => emp := by
  unfold rStoreSession
  refine RT.call rStoreOpen_spec fun o => ?_
  cases o with
  | none => exact RT.ret fun m hm => hm
  | some s =>
    refine RT.call (rActs_whole as s) fun s => ?_
    exact RT.call (rStoreClose_spec s) fun _ => RT.ret fun m hm => hm

/-- C68: opening a store, whatever is then done with it, and closing it leaves no
descriptor, mapping, directory stream or block behind and disturbs none that was there
before, for every outcome of every system call; so does an attempt at opening that fails. -/
theorem C68_store (A : Alloc) (as : List RAct) : Restores (rStoreSession A as) := (rStoreSession_spec A as).restores

/-- C68: so does `urkel_destroy`. -/
theorem C68_destroy (A : Alloc) : Restores (rStoreDestroy A) := rStoreDestroy_spec.restores

/-- What a session leaves: nothing if the database could be opened, otherwise the block of
`urkel_t`. -/
def sessionLeft (ok : Bool) : SProp := if ok then emp else ex fun a => pts a .raw

theorem rSession_spec (A : Alloc) (as : List RAct) : RT emp (rSession A as) sessionLeft := by
  unfold rSession
  refine RT.call rDbOpen_spec fun o => ?_
  cases o with
  | none => exact RT.ret fun m hm => hm
  | some d =>
    refine RT.bind (rActs_whole as d.store) (R := pts d.blk .raw ∗∗ pts d.lock .raw) (by show wholeDb d = _; unfold wholeDb; ac_rfl) fun s => ?_
    refine RT.eq_pre (P' := wholeDb { d with store := s }) (by unfold wholeDb; ac_rfl) ?_
    exact RT.call (rDbClose_spec _) fun _ => RT.ret fun m hm => hm

/-- C68 for whole databases: when `urkel_open` succeeds, `urkel_close` has given back
everything in the end. When it fails, every descriptor, mapping and directory stream has
been given back, and of the blocks all but one (C64_open_false). -/
theorem C68_session (A : Alloc) (as : List RAct) (w : List Nat) (heap : Heap) :
    ∃ ok w' heap', rSession A as w heap = .ok ((ok, w'), heap') ∧
      (ok = true → ∀ a, heap'.lookup a = heap.lookup a) ∧
      (ok = false → ∃ b, heap.lookup b = none ∧ heap'.lookup b = some .raw ∧ ∀ a, a ≠ b → heap'.lookup a = heap.lookup a) := by
  obtain ⟨y, heap', h1, h2⟩ := rSession_spec A as w (fun m => m = view heap) heap (by rw [emp_sep])
  obtain ⟨ok, w'⟩ := y
  refine ⟨ok, w', heap', h1, ?_, ?_⟩
  · rintro rfl
    have h2 : (emp ∗∗ fun m => m = view heap) (view heap') := h2
    rw [emp_sep] at h2
    exact fun a => congrFun h2 a
  · rintro rfl
    have h2 : ((ex fun a => pts a .raw) ∗∗ fun m => m = view heap) (view heap') := h2
    rw [sep_comm, sep_ex] at h2
    obtain ⟨b, h2⟩ := h2
    obtain ⟨m1, m2, hd, he, h1, h2⟩ := h2
    subst h1
    have key : ∀ x, heap'.lookup x = (heap.lookup x).or (if x = b then some .raw else none) := fun x => by rw [← h2 x]; exact he x
    have hb : heap.lookup b = none := by
      rcases hd b with h | h
      · exact h
      · rw [h2 b, if_pos rfl] at h; cases h
    refine ⟨b, hb, by rw [key, hb, if_pos rfl]; rfl, fun a ha => by rw [key, if_neg ha, Option.or_none]⟩

/-- Answers with which opening succeeds in an existing database of one file. -/
def okAnswers : List Nat :=
  [1, 0, 1, -- the path, mkdir
   1, 1, 1, -- the key file
   1, 2, 1, 0, 0, 1, 1, 1, -- the directory: two entries, one of them "."
   1, 1, -- the lock
   1, 1, 1, 1, 1, 1, -- the last record
   1, 1, -- random seed
   1, 1, 1, 1, -- the current file, mapped
   1] -- the tree is empty

/-- How many resources of a kind there are. -/
def count (c : Cell) (h : Heap) : Nat := (h.filter fun e => decide (e.2 = c)).length

/-- Run from nothing: whether there is a result, and how many resources there are in all, and
of them blocks, descriptors and mappings. -/
def census {α : Type} (m : RM (Option α)) (w : List Nat) : Option (Bool × Nat × Nat × Nat × Nat) :=
  match m w [] with
  | .ok ((o, _), h) => some (o.isSome, h.length, count .raw h, count .fd h, count .mapping h)
  | _ => none

/-- With these answers opening succeeds, and seven blocks, two descriptors and a mapping are
held. -/
example : census (rDbOpen bumpAlloc) okAnswers = some (true, 10, 7, 2, 1) := by decide +kernel

/-- If the root cannot be read in the end, opening fails and the block of `urkel_t` is left. -/
example : census (rDbOpen bumpAlloc) (okAnswers.dropLast ++ [0, 1, 1, 0]) = some (false, 1, 1, 0, 0) := by decide +kernel

/-- The same answers, and those for a commit that writes two pieces and enters a root into the
cache. -/
def moreAnswers : List Nat := okAnswers ++ [1, 1, 2, 0, 1, 1, 1, 0, 1, 1, 1, 1, 1, 1, 1, 1]

/-- After the commit more is held. -/
example : census (do
    match ← rDbOpen bumpAlloc with
    | none => pure none
    | some d => do
      let s ← rActs bumpAlloc d.store [.commit]
      pure (some s)) moreAnswers = some (true, 15, 12, 2, 1) := by decide +kernel

/-- And a session that commits, reads and looks up an old root gives everything back. -/
example : census (do
    let b ← rSession bumpAlloc [.commit, .read 1, .history 3]
    pure (if b then some b else none)) moreAnswers = some (true, 0, 0, 0, 0) := by decide +kernel

end Urkel
