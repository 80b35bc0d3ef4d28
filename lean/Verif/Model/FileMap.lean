import Verif.Model.Base
/-
store.c: the table of open file handles, its eviction, and opening and closing of
data files. File contents are in `Model/Store.lean`; here a handle is a number.
-/
namespace Urkel

/-- MAX_OPEN_FILES (store.c:25). -/
def maxOpenFiles : Nat := 32

/-- The part of `urkel_store_t` concerned with handles (store.c:60-65, 79-92):
`items` (`len` is its length), `size`, `index`, `current` (`none` is
`urkel_null_file`), the random numbers still to be drawn, the next fresh handle and
the handles closed so far, newest first. -/
structure Handles where
  items : List (Option Nat)
  size : Nat
  index : Nat
  current : Option Nat
  rand : List Nat
  fresh : Nat
  closed : List Nat
deriving DecidableEq

/-- `urkel_filemap_lookup` (store.c:245-259). -/
def fmLookup (s : Handles) (i : Nat) : Option Nat := (s.items[i]?).join

/-- The table grown to have a slot `i` (store.c:265-274). -/
def fmGrow (maxFiles : Nat) (items : List (Option Nat)) (i : Nat) : Res (List (Option Nat)) :=
  if i ≥ items.length then do
    check (i < maxFiles)
    pure (items ++ List.replicate (i + 1 - items.length) none)
  else pure items

/-- `urkel_filemap_insert` (store.c:261-282) of handle `f` with `file->index = i`. -/
def fmInsert (maxFiles : Nat) (s : Handles) (i f : Nat) : Res Handles := do
  let items ← fmGrow maxFiles s.items i
  check ((items[i]?).join).isNone
  pure { s with items := items.set i (some f), size := s.size + 1 }

/-- `urkel_filemap_remove` (store.c:284-304). `size` is unsigned: it wraps below
zero (`ub` here). -/
def fmRemove (s : Handles) (i : Nat) : Res (Handles × Option Nat) :=
  match (s.items[i]?).join with
  | none => .ok (s, none)
  | some f => if s.size = 0 then .ub else .ok ({ s with items := s.items.set i none, size := s.size - 1 }, some f)

/-- `urkel_store_close_file` (store.c:493-507). -/
def closeFile (s : Handles) (i : Nat) : Res Handles := do
  let (s, f) ← fmRemove s i
  match f with
  | none => pure s
  | some f =>
    let s := if s.current = some f then { s with current := none, index := 0 } else s
    pure { s with closed := f :: s.closed }

/-- The `for` loop of `urkel_store_evict` (store.c:444-457) from position `i` on:
the position of the file to close, `none` if the loop ends without closing one. -/
def evictPick (index : Nat) : List (Option Nat) → Nat → Nat → Option Nat
  | [], _, _ => none
  | none :: rest, i, tries => evictPick index rest (i + 1) tries
  | some _ :: rest, i, tries =>
    if i = index then evictPick index rest (i + 1) tries
    else if tries = 0 then some i
    else evictPick index rest (i + 1) (tries - 1)

/-- `urkel_rng_rand` (store.c:396-406): the next random number; the sequence is
arbitrary (it repeats 0 when the given list is used up). -/
def drawRand (s : Handles) : Nat × Handles := (s.rand.headD 0, { s with rand := s.rand.tail })

/-- `urkel_store_evict` (store.c:436-459). `size - 1` is never 0 here. Running out
of `fuel` stands for a loop that does not end (`ub`). -/
def evict : Nat → Handles → Res Handles
  | 0, _ => .ub
  | fuel + 1, s =>
    if s.size > maxOpenFiles then do
      let (num, s) := drawRand s
      match evictPick s.index (s.items.drop 1) 1 (num % (s.size - 1)) with
      | some i => do
        let s ← closeFile s i
        evict fuel s
      | none => evict fuel s
    else .ok s

/-- More rounds than there are files. -/
def evictFuel (s : Handles) : Nat := s.size + 1

/-- `if (flags == WRITE_FLAGS)` `urkel_store_evict` (store.c:483-486). -/
def evictIf (write : Bool) (s : Handles) : Res Handles :=
  if write then evict (evictFuel s) s else .ok s

/-- `urkel_store_open_file` (store.c:461-491); `write` is `flags == WRITE_FLAGS`,
`opens` whether `urkel_file_open` succeeds. -/
def openFile (maxFiles : Nat) (s : Handles) (i : Nat) (write opens : Bool) : Res (Handles × Option Nat) :=
  if i = 0 ∨ i > s.index + 1 then .ok (s, none)
  else match fmLookup s i with
    | some f => .ok (s, some f)
    | none =>
      if !opens then .ok (s, none)
      else do
        let f := s.fresh
        let s ← evictIf write s
        let s ← fmInsert maxFiles s i f
        pure ({ s with fresh := f + 1 }, some f)

/-- The rollover in `urkel_store_write` (store.c:528-552); `opens` and `syncs` say
whether the system calls succeed. The result says whether writing goes on. -/
def rollover (maxFiles : Nat) (s : Handles) (opens syncs : Bool) : Res (Handles × Bool) := do
  let next := s.index + 1
  let (s, f) ← openFile maxFiles s next true opens
  match f with
  | none => pure (s, false)
  | some f =>
    if !syncs then pure (s, false)
    else do
      let s ← closeFile s s.index
      pure ({ s with current := some f, index := next }, true)

/-- The handles after `urkel_store_init` opened file `index` (store.c:1092-1103). -/
def handlesInit (maxFiles index : Nat) (rand : List Nat) : Res Handles := do
  let (s, f) ← openFile maxFiles ⟨[], 0, index, none, rand, 0, []⟩ index true true
  pure { s with current := f }

/-- What happens to the handles: a read of a file (store.c:509-520), a rollover,
the eviction at the end of a commit (store.c:797). -/
inductive FileOp where
  | read (i : Nat) (opens : Bool)
  | roll (opens syncs : Bool)
  | commitEnd

/-- One such event. -/
def fileStep (maxFiles : Nat) (s : Handles) : FileOp → Res Handles
  | .read i opens => do
    let (s, _) ← openFile maxFiles s i false opens
    pure s
  | .roll opens syncs => do
    let (s, _) ← rollover maxFiles s opens syncs
    pure s
  | .commitEnd => evict (evictFuel s) s

/-- A sequence of events. -/
def fileRun (maxFiles : Nat) : Handles → List FileOp → Res Handles
  | s, [] => .ok s
  | s, op :: ops => do
    let s ← fileStep maxFiles s op
    fileRun maxFiles s ops

end Urkel
